{
 "C01": [
  "proved",
  ""
 ],
 "C02": [
  "proved",
  "The SAT_SYM exception is stated and proved separately."
 ],
 "C03": [
  "proved",
  ""
 ],
 "C04": [
  "proved",
  ""
 ],
 "C05": [
  "proved",
  ""
 ],
 "C06": [
  "proved",
  ""
 ],
 "C07": [
  "proved",
  "The source comment on RND (ties to even) is wrong; C07_RND_comment_wrong."
 ],
 "C08": [
  "proved",
  ""
 ],
 "C09": [
  "proved",
  ""
 ],
 "C10": [
  "proved",
  ""
 ],
 "C11": [
  "proved",
  ""
 ],
 "C12": [
  "proved",
  "The converse direction (exact_q_value=False) is shown to fail by C12_needs_exact_q_value."
 ],
 "C13": [
  "proved",
  "Gradients by forward-mode dual numbers with tf.stop_gradient; stated for one scalar parameter at a time."
 ],
 "C14": [
  "proved",
  ""
 ],
 "C15": [
  "proved",
  "Quantizer calls. The bias quantization of the very first call is treated under C24."
 ],
 "C16": [
  "proved",
  "Shapes of the reduction are treated under C55/C56."
 ],
 "C17": [
  "proved",
  "log2 is taken exact (no float32 rounding of np.log2)."
 ],
 "C18": [
  "proved",
  ""
 ],
 "C19": [
  "proved",
  ""
 ],
 "C20": [
  "proved",
  "C20_iff: exact condition for every input, also outside of the recorded range."
 ],
 "C21": [
  "proved",
  ""
 ],
 "C22": [
  "proved",
  ""
 ],
 "C23": [
  "proved",
  ""
 ],
 "C24": [
  "proved",
  "Scope of the statement: WF (channels_last or single bitwidth, bitwidths inside bw_clip). C24_range_needed shows the range hypothesis is needed. Excluded cases: C61, C62. C24_iff: exact condition for every input."
 ],
 "C25": [
  "proved",
  "Same scope as C24; any rounding strategy, both overflow modes."
 ],
 "C26": [
  "proved",
  "Exact arithmetic (C57/C58 for float32). Recorded ranges below 2^32, fractional bits at least -32. Connectivity of linear layers is an arbitrary tap list. C106 gives the exact condition for every input."
 ],
 "C27": [
  "proved",
  "C27_activation_iff, C27_add_iff: exact condition for every input."
 ],
 "C28": [
  "partial",
  "Kernel: proved for both settings of scale. Bias: violated by the code unless bn_beta=0 (training ignores bn_beta), for center=False with a bias (training adds no bias), and for scale=False (inference still multiplies the mean by rsqrt(1+eps)); exact gaps and counterexamples proved."
 ],
 "C29": [
  "partial",
  "Violated by the code: the mean is divided by the kernel instead of multiplied; C29_iff characterises exactly when the result is right, C29_fails is a counterexample."
 ],
 "C30": [
  "proved",
  "np.int64 overflow and float rounding of arr * 2**f are not modelled."
 ],
 "C31": [
  "partial",
  "Holds for at most 31 fractional bits in exact arithmetic; C31_iff: exactly for arrays with at most 32 fractional bits and no entry +-2^-32; fails for +-2^-32 (C31_fails_at_32_bits) and overcounts powers of two in float32 (C31_float32_overcount); C31_float32_iff: for float32 arrays in float32 exactly if, besides, the largest magnitude is no power of two from 2^-8 on."
 ],
 "C32": [
  "partial",
  "Exact arithmetic and grid-aligned ranges; fails in float32 (C32_float32_underestimates) and for ranges clamped off the grid (C32_needs_grid). For any range: always with relu (C32_act_bw_relu), otherwise exactly under the condition of C32_act_bw_iff. C32_kernel_float32_iff: for kernels in float32 exactly if no weight of the largest magnitude is a power of two from 2^-8 on that is also the resolution of its quantizer."
 ],
 "C33": [
  "proved",
  "C33_fails_beyond_20_bits shows the 20-bit limit is needed."
 ],
 "C34": [
  "partial",
  "Proved for concatenation, max pooling and addition for all inputs. The code violates it for the other layers, with counterexamples; C34_subtract_iff, C34_avg_pool_iff, C34_dot_iff and C34_linear_iff say exactly for which types, window sizes, lengths and weights the derived type contains every output."
 ],
 "C35": [
  "partial",
  "Proved for homogeneous SAT/WRAP quantizers under four explicit conditions, unconditionally for wide upstream types, plus idempotence; kernel-checked counterexamples for every excluded combination (the code does change outputs there). Heterogeneous wrapping quantizers whose sign and integer bits are kept are covered too (C35_heterogeneous_wrap, C35_heterogeneous_idempotent). Idempotence holds for every quantizer and upstream type: C111_quantizer. C35_wrap_iff and C35_sat_iff give the exact condition, in every rounding mode, for homogeneous wrapping and saturating quantizers of at least one bit (C35_wrap_trn, C35_wrap_rnd: the same in numbers); C35_sat_negative_width: the code can store a negative width, after which the quantizer no longer maps zero to zero."
 ],
 "C36": [
  "proved",
  ""
 ],
 "C37": [
  "proved",
  ""
 ],
 "C38": [
  "proved",
  ""
 ],
 "C39": [
  "proved",
  "Also proved: unquantized inputs are accepted with accum_fp_max_offset and in front of activations."
 ],
 "C40": [
  "proved",
  ""
 ],
 "C41": [
  "proved",
  ""
 ],
 "C42": [
  "partial",
  "False of the code at the constructor's own limits (LUT_SIZE_LIMITATION, 4096 by default, compared strictly) and for types without bits: C42_exact gives, for all limits and types, exactly when the layer is kept, when it becomes a table and when conversion crashes. Concrete crashes: T=4096 with a 12-bit input, and inputs without bits."
 ],
 "C43": [
  "proved",
  ""
 ],
 "C44": [
  "proved",
  ""
 ],
 "C45": [
  "proved",
  "C45_first_seen_renamed shows that a first-seen name is renamed if it was handed out as a generated name."
 ],
 "C46": [
  "proved",
  ""
 ],
 "C47": [
  "partial",
  "Violated by the code for no_bops_computation=True: C47_no_bops_keeps_recording is a counterexample; proved for every other option."
 ],
 "C48": [
  "partial",
  "Violated by the code after an ordinary first call: the second call then ignores its data, whatever its other arguments (C48_second_call_ignores_data), and only applies its cover factor again to the ranges it finds (C48_second_call_covers); with cover factor 1 it changes nothing (C48_ordinary_first_call; C48_rst_false_records_nothing is a concrete case). Proved when the first call used no_bops_computation=True and cover factor 1, for any cover factor of the second call unless a sigmoid or tanh layer has negative fractional bits (C48_extends_cover_partial), for factor 1 in all models (C48_extends_partial); in the remaining case it fails as well (C48_cut_twice)."
 ],
 "C49": [
  "partial",
  "Violated by the code: trace_minmax does not enter nested models and leaves each of their layers exactly as it was (C49_nested_untouched; C49_nested_not_traced is a concrete case). Proved: layers listed by the model itself; ResetMinMax reaches every depth."
 ],
 "C50": [
  "proved",
  "Any model, dataset, options and range; factors <= 0 are refused. C26_trace_minmax adds that a factor >= 1 keeps bit accuracy."
 ],
 "C51": [
  "proved",
  "Weights with at most 31 fractional bits (the default clip is 23). The digit count of a weight is for exact arithmetic; in float32 get_arr_bits can count more (C31_float32_overcount), zero weights still count 0; C51_float32: in float32 the counts agree if the largest weight is no power of two from 2^-8 on."
 ],
 "C52": [
  "proved",
  "Models with one output (several outputs: C73). An empty dataset raises (C52_empty)."
 ],
 "C53": [
  "partial",
  "Violated by the code: set_default_*_conf keeps a reference (C53_set_keeps_reference, C53_build_changes_defaults). Proved for programs that leave the dict passed alone; isolation of get_default_*_conf is proved without conditions (C53_get_isolated)."
 ],
 "C54": [
  "partial",
  "Violated by the code when a dense layer shares its 'auto' dict with an HActivation (C54_shared_with_activation). Proved for every other sharing and build order, and without conditions for layers that use the defaults (C54_default_configuration)."
 ],
 "C61": [
  "partial",
  "Violated by the code: C61_channels_first_fails is a counterexample; proved for a single bitwidth and for layers without bias. C61_iff: exact condition, the two roundings of the bias must be equal."
 ],
 "C62": [
  "partial",
  "Violated by the code: C62_first_call_fails is a counterexample (bias quantized before clipping). Proved inside the clip range, for layers without bias and, in general, when the bias quantizes to the same values before and after clipping (C62_same_bias_partial); the second and all later calls always agree (C62_later_calls). C62_iff: exact condition, the bias must round to the same value before and after clipping."
 ],
 "C63": [
  "partial",
  "Violated by the code: C63_tanh_negative_bits is a counterexample; proved for non-negative fractional bits; C63_iff_partial is the exact condition and C63_values says when it fails."
 ],
 "C64": [
  "partial",
  "Violated by the code for a non-zero bias (the bias is not scaled): exact gap C64_gap, exact condition C64_iff, counterexample C64_bias_fails; proved for zero bias."
 ],
 "C65": [
  "proved",
  ""
 ],
 "C66": [
  "partial",
  "Fails: for every rounding mode other than TRN/RND, for SAT_ZERO and WRAP_SM inputs, and for unsigned values before signed wrapping quantizers (counterexamples proved). Proved when nothing is truncated; the safe modes are C36/C37. C66_rounding_iff gives the exact table for the rounding mode: which modes, and with how many extra bits, cannot see the truncation; C66_derived_iff and C66_two_extra_bits_iff state it for the types the code derives (safe exactly for TRN, RND, or at most two bits rounded away). C66_wrap_iff: exact condition for wrapping quantizers with these modes."
 ],
 "C67": [
  "proved",
  ""
 ],
 "C68": [
  "partial",
  "Holds iff the bias is a value of the accumulator type (C68_iff, with that type spelled out); counterexamples proved for finer and larger biases."
 ],
 "C69": [
  "partial",
  "The code violates it: C69_second_output_lost, and C69_selected_output for every nested model with one input and two or more outputs, whichever output is chosen. Proved for nested models with one output each. For any number of outputs C69_all_outputs gives what the flattened model computes: every reference to one tensor of a call is read as all tensors of the call."
 ],
 "C70": [
  "partial",
  "The code violates it: C70_source_renamed. Proved for transformers that replace every layer of the source; flattening keeps the names if and only if no two calls are of layers with the same name (C70_flatten_keeps_names_iff_partial)."
 ],
 "C71": [
  "proved",
  "Convolution and dense layers as in C24/C25; nested models with one output each."
 ],
 "C72": [
  "proved",
  "tanh/sigmoid: for inputs with at least -2/-3 fractional bits."
 ],
 "C73": [
  "partial",
  "Violated by the code: C73_outputs_mixed is a counterexample; proved when the dataset fits in one batch; C73_result_partial is exactly what is returned otherwise."
 ],
 "C74": [
  "proved",
  "Channels-last layers; real arithmetic (float32: C58)."
 ],
 "C75": [
  "partial",
  "Violated by the code: C75_permute, C75_flatten_first (PFlatten with channels_first), C75_average_pool and C75_max_pool_mixed are counterexamples. Proved for HGQ layers, reshapes, concatenations, whole graphs of these, and max pooling over equal types. Exact conditions: C75_permute_iff (no position may move to one with another number of bits), C75_average_pool_iff (in each window no position has bits, or the window size is a power of two and only one has), C75_max_pool_unsigned_iff (in each window one type contains the others; sufficient for signed types too, C75_max_pool_dominated). C75_flatten_first_iff: the same for PFlatten with channels first."
 ],
 "C76": [
  "partial",
  "Proved with the exact-arithmetic weight bits; in float32 get_arr_bits can report more than the estimate (C32_float32_underestimates). With ranges recorded under earlier bitwidths it fails (C76_input_bits_stale_fails); behind a relu it holds for any ranges (C76_input_bits_relu), otherwise exactly under the condition of C76_input_bits_iff. C76_model_partial lifts it to whole models: the BOPs in the reported loss are at least the exact BOPs of the model. C76_calibrated_partial: so after trace_minmax over any data. C76_float32_partial: with float32 weight bits under the condition of C32_kernel_float32_iff; for whole models and after calibration in C76_model_float32_partial and C76_calibrated_float32_partial."
 ],
 "C55": [
  "proved",
  "Dimensions and modes of skip_dims; also shapes with unknown dimensions (counted once), error branches and per-element degeneracy."
 ],
 "C56": [
  "partial",
  "Violated by the code when a dimension with its own bitwidths (of size other than 1) precedes a shared one (C56_other_dimensions, C56_except_1st). C56_iff: recording succeeds exactly when this is not so and no dimension is listed twice; C56_right: whenever it succeeds, the recorded values are right."
 ],
 "C77": [
  "partial",
  "Violated by the code when a dimension with its own bitwidths (of size other than 1) precedes a shared one (C77_rows, C77_rows_rectangular). C77_iff: the estimate is right for all kernels exactly when this is not so and no dimension is listed twice."
 ],
 "C57": [
  "partial",
  "Violated by the code at one input per rounding mode and format: the largest float32 number below half a unit (C57_just_below_half, C57_round_just_below_half). Proved for all other inputs; exact for every input with the floor strategy. C107 shows that overflow and subnormal numbers make no difference. C57_fixed_point_iff and C57_round_iff: exactly which inputs, modes and formats give another value."
 ],
 "C58": [
  "proved",
  "Any order and association, with or without fused multiply-add; the bound is sharp."
 ],
 "C59": [
  "proved",
  "Real logarithms with an explicit tolerance of 1/4 for their float32 error (rounding strategies); exact logarithms for 'floor' and shared bitwidths. C59_tiny_weight and C59_twice show the limits."
 ],
 "C60": [
  "partial",
  "Violated by the code with the default overflow mode WRAP (C60_wrap_differs), for one-bit signed quantizers (C60_one_bit_differs), for the scale of binary (C60_binary_scale_ignored) and the slope of quantized_relu (C60_relu_slope_ignored), which are ignored. Proved otherwise. C60_wrap_iff: exactly the inputs on which quantized_bits converted with WRAP agrees."
 ],
 "C78": [
  "proved",
  "Composition of C24, C25, C57 and C58; the excluded inputs of C57 cannot occur under the bound. C78_bound_needed shows that the bound cannot be dropped."
 ],
 "C79": [
  "partial",
  "Proved for all classes which settings survive; the code forgets epsilon, momentum, center, scale and others of the fused batch-norm layers (C79_bn_epsilon_lost, C79_bn_loads_iff), conv_op, do_adapt_kernel_bits, and get_config rewrites quantizers with negative bits."
 ],
 "C80": [
  "partial",
  "Outputs proved. The recorded ranges are not saved, so conversion of a loaded model is refused until it is traced again (C80_conversion_refused); re-tracing on the same data restores ranges and proxy (C80_retrace_partial)."
 ],
 "C81": [
  "partial",
  "Holds for all layers but HDenseBatchNorm, whose flag for the delayed adaption is set again by loading: the first training step after loading shifts the learned bitwidths (C81_fused_dense_readapts)."
 ],
 "C82": [
  "partial",
  "The code violates it: a callable named relu that is not tf.keras.activations.relu (tf.nn.relu) is accepted and applied by the layer but left out of the proxy (C82_foreign_relu). Proved for None, strings and the Keras functions, and for other callables exactly where the activation does nothing (C82_callable_iff)."
 ],
 "C83": [
  "partial",
  "The code violates it: results below 64 units may be off by up to 2^-17 units (C83_differs: 2^-27 instead of 0), zero tensors then get bits (C83_wasted_bits), and with relu the derived type can be too small so that the proxy returns 0 instead of 1/32 (C83_relu_overflow). Proved: the bound, equality from 64 units on, and that without relu the type always contains the inference result."
 ],
 "C84": [
  "partial",
  "Values, weights, permutation invariance and masking are proved in full. The code violates the rest: compute_output_shape announces value_dim*num_heads channels while size(v) channels are returned (C84_declared_shape), and with an unknown batch size the call raises (C84_needs_static_shapes)."
 ],
 "C85": [
  "proved",
  "Models whose HGQ layers are all top-level layers; nested models are not traced at all (C49_nested_not_traced). Empty calibration data: C85_empty_data."
 ],
 "C86": [
  "partial",
  "The code violates it: while a range is unrecorded (fresh model, or after ResetMinMax) act_bw is inf, so each dense or convolution layer behind it adds inf or nan, and nan for the default beta=0 (C86_unrecorded, C86_after_reset). With recorded ranges the claim is proved (C86_finite_partial, C86_value)."
 ],
 "C87": [
  "proved",
  "Automatic differentiation as dual numbers; recorded ranges are variables without gradient. The layer in front is one with a quantizer."
 ],
 "C88": [
  "proved",
  "Exact arithmetic. The constructor accepts a momentum outside [0,1], for which the variance can become negative (C88_bad_momentum)."
 ],
 "C89": [
  "partial",
  "The code violates it: a saturating quantizer with more fractional bits than its input is shrunk by the registration and then saturates at another value (C89_registration_changes_output: 31/4 becomes 7). Proved for every graph whose layers fit the types of their inputs (PLay.Fits), which covers heterogeneous wrapping quantizers behind a type with more integer bits and, for homogeneous wrapping and saturating quantizers of at least one bit behind such a type, exactly the cases of C35_wrap_iff and C35_sat_iff (except signed types of negative width). Independence of the derived types from the history holds in every graph: C111_types."
 ],
 "C90": [
  "proved",
  "For every graph, without the side conditions of C89."
 ],
 "C91": [
  "partial",
  "The code violates it: an unsigned and a signed layer, concatenated and quantized to a narrower wrapping type: the unsigned layer is registered with the quantizer's integer bits but without its sign bit and wraps in half the range (C91_wrapping_output_changes: -3 becomes 1). Proved for every graph with Fits (C89) whose consumers use the values in the ways listed in PGraph.DataPath (rounding TRN or RND, no sign-magnitude wrapping, signed wrapping only of signed values, stored types with at least one bit that resolve the range)."
 ],
 "C92": [
  "partial",
  "The code violates it: two HQuantize layers of which the second rounds 7/8 up to 1, outside the type inferred for the first; registration drops the integer bit and the output 1 on the calibration sample becomes 0 (WRAP) or 1/2 (SAT) (C92_registration_changes_calibration). Proved: with Fits (C89) at every layer, in both modes, also for the data path with stored types; for the quantizers made from recorded ranges only a condition on fractional widths is needed (FPQ.Mild), in both modes, because the recorded ranges were reached by values of the upstream type (trace_attained, deploy_recorded); in WRAP mode registration then changes nothing on any input, in SAT mode it can outside the recorded ranges (C92_conservative_outside_changes). Missing: layers that do not fit."
 ],
 "C93": [
  "partial",
  "False of the code in both directions: after an interrupted calibration or no_bops_computation=True layers go on recording (C93_interrupted), and a predict made then compiles a function that goes on recording even after later complete calibrations (C93_compiled_goes_on_recording); and a compiled predict made before never records (C93_compiled_does_not_record). Proved: in every history whose calibrations complete with the BOPs computation inference keeps the ranges, and a complete calibration followed by compile repairs any other history. For all histories, also with interrupted calibrations and no_bops_computation=True, C93_exact_keeps and C93_exact_records say which inferences record (Spec.recordingAfter) and what: the others keep all ranges. Missing: the property as stated, which the code violates."
 ],
 "C94": [
  "partial",
  "False of the code for HDenseBatchNorm and the fused convolutions under model.fit: the compiled training function adapts at every step (C94_every_fit_step), so the bitwidths of weights above a bound below 1 fall to the lower clip and all weights quantize to zero after enough steps (C94_bits_run_to_the_lower_clip, C94_weights_vanish); HBatchNormalization in contrast never adapts (C94_batchnorm_never_adapts). Proved: layers adapted at build time, layers configured not to adapt, and fused layers whose first training step is an eager call or that take only one compiled step. C94_exact gives the bitwidths of a fused layer after every history (adaptedActually), compiled training of any length included."
 ],
 "C95": [
  "partial",
  "False for register(A | B, f) and for annotations with typing.Union, which the patch silently drops (C95_lost_registrations). Proved: all forms the package itself uses. Classes without virtual subclasses. C95_iff: exactly which forms of registration have the same outcome."
 ],
 "C96": [
  "partial",
  "False for nested use, after which everything printed is lost for ever (C96_nested). Proved: any number of blocks that are not nested, with exceptions anywhere. C96_iff: for every program the streams are restored exactly if no block is entered inside another one."
 ],
 "C97": [
  "partial",
  "False for arrays of a type other than int8 (C97_array_types). Proved: Python numbers and lists, stored as int8: transparent exactly on values of the type; saving and loading; a whole model behind a Signature. "
 ],
 "C98": [
  "proved",
  "Under the magnitude bounds of the statement (Fits, TypesFit, Bounded); C98_bound_needed shows that the bound on accumulated magnitudes is needed. Overflow to infinity and subnormal numbers are not modelled."
 ],
 "C99": [
  "proved",
  "C99_range_exact is for layers whose ranges trace_minmax does not adjust (softmax, sigmoid and tanh layers have their ranges clipped) and states nothing about kernel layers, which are called once and covered by C16 and C26; ranges below 2^32 for the proxy, as in C26"
 ],
 "C100": [
  "partial",
  "Violated by the code: behind a reshape, pooling or concatenation layer called several times the AssertionError meant to forbid it is caught by the except clause of input_bw and the layer adds nothing to the loss (C100_behind_reused_passive, C100_behind_reused_concatenation). C100_exact: in a model that can be called this happens exactly behind the layers of Spec.SwitchedOff; every other layer adds what it adds when all layers are called once (C100_quantizers_partial is the case of quantizer and Signature layers called several times). trace_minmax raises or counts right (C100_trace_counts); behind a reused concatenation it does not raise."
 ],
 "C101": [
  "proved",
  "No assumption on well-formedness of the graph, only that stored sign entries are not negative. Fractional bits at least -32 for the version stated on recorded ranges."
 ],
 "C102": [
  "proved",
  "The limits are part of the statement; C102_limit_is_sharp and C102_wide_quantizer_fails show what happens beyond them."
 ],
 "C103": [
  "proved",
  ""
 ],
 "C104": [
  "proved",
  ""
 ],
 "C105": [
  "proved",
  ""
 ],
 "C106": [
  "proved",
  "iff between equal tensors and no overflow for saturating proxies; for aggressive=True one direction in general, both without fused relu, counterexample with fused relu; counterexample for comparing only the outputs. Excluded as in C26: softmax, sigmoid and tanh layers with negative fractional bits."
 ],
 "C107": [
  "proved",
  "C107_nearest_even pins the rounding of the model to the specification; C107_devices shows three different devices meeting the specification and C107_devices_differ that they differ below the normal range; C107_underflow is the counterexample outside the condition."
 ],
 "C108": [
  "proved",
  "In exact arithmetic. C108_tame lists layers meeting the continuity condition, C108_discontinuous shows that it is needed."
 ],
 "C109": [
  "proved",
  "C109_stochastic shows that the exact statement needs deterministic strategies. Weights are fixed; dropout is not modelled, batch statistics are the subject of the batch normalisation properties."
 ],
 "C110": [
  "partial",
  "Proved for all layers without batch normalisation, and for fused layers with momentum 1 or with center and scale switched off. The code violates it for other fused layers: trainable is not looked at, and every training pass moves the stored statistics (C110_fused_iff gives exactly when a pass changes nothing, C110_fused_changes that zeros always do, C110_fused_inference_changes a change of the inference output)."
 ],
 "C111": [
  "proved",
  "Without the condition PLay.Fits of C89. C111_quantizer holds for every quantizer and every upstream type, so it replaces the conditional idempotence statements of C35."
 ],
 "C112": [
  "partial",
  "The code violates it: a layer before a quantizer is registered with the format of the quantizer before that quantizer is shrunk, a second registration uses the shrunk one (C112_first_entries_differ: fixed<6,4,TRN,SAT>, then fixed<4,4,TRN,SAT>). Proved from the second registration on, for every history, and from the first one for models in which nothing is shrunk."
 ],
 "C113": [
  "proved",
  "C113_deployed_after_training, by induction over the history that layers stay sound and bitwidths clipped after a pass. Rational arithmetic; recorded ranges below 2^32 as in C26; clip ranges start at -32 or above (at 0 for softmax, sigmoid, tanh, see C63)."
 ],
 "C114": [
  "partial",
  "Proved for fused layers with scale and a bias that is absent or 0. The code violates it otherwise: the bias is added after the scaling although the moving mean contains it (C114_bias_fails), and without scale the mean is divided by sqrt(1+epsilon) while the values are not (C114_no_scale_fails). C114_layer_iff: a layer with scale and a bias is batch normalisation exactly if, channel by channel, the bias is 0 or the factor gamma/sqrt(var+eps) is 1. C114_bias_added_late: for any bias and any center and scale the deployed model approximates the network that adds the bias after normalising (without scale: subtracts mean*rsqrt(1+eps))."
 ],
 "C115": [
  "partial",
  "Proved for deterministic quantizers and no dropout when the moving statistics are those of the batch, bn_beta is 0, and a layer has a bias exactly if it has center (and then scale). The code violates it otherwise: training ignores bn_beta (C115_beta_fails), normalises with the batch (C115_statistics_fail) and drops the bias without center (C115_no_center_fails). Dropout in a training pass makes the ranges too small as well (C115_dropout_fails)."
 ],
 "C116": [
  "proved",
  "For any model, history and fused layer; values are exact rationals, and an empty batch (for which the code computes NaN) is excluded."
 ],
 "C117": [
  "proved",
  "For models of Model/FusedNet.lean; the bitwidth adaption of fused layers in the first calls is C94."
 ],
 "C118": [
  "proved",
  "Keras' Dropout as documented (inverted dropout); the random numbers are inputs of the model."
 ],
 "C119": [
  "partial",
  "The values agree (C119_same_values). The BOPs do not: post_build divides by prod(output_shape[1:-1]), which with channels first contains the filters and misses the last spatial dimension. C119_exact and C119_train give the factor (last dimension / number of filters), C119_iff says exactly when the two formats agree, C119_fails is a concrete layer."
 ]
}