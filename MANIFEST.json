{
 "claims": [
  {
   "property": "C01",
   "status": "proved",
   "theorems": [
    "C01_output_in_type",
    "C01_zero_bits",
    "C01_layer_output_in_type"
   ],
   "note": ""
  },
  {
   "property": "C02",
   "status": "proved",
   "theorems": [
    "C02_representable_unchanged",
    "C02_sat_sym_lowest",
    "C02_idempotent"
   ],
   "note": "The SAT_SYM exception is stated and proved separately."
  },
  {
   "property": "C03",
   "status": "proved",
   "theorems": [
    "C03_wrap_is_bit_truncation",
    "C03_wrap_trn"
   ],
   "note": ""
  },
  {
   "property": "C04",
   "status": "proved",
   "theorems": [
    "C04_sat_nearest",
    "C04_saturation_values",
    "C04_saturating_monotone"
   ],
   "note": ""
  },
  {
   "property": "C05",
   "status": "proved",
   "theorems": [
    "C05_sat_zero"
   ],
   "note": ""
  },
  {
   "property": "C06",
   "status": "proved",
   "theorems": [
    "C06_wrap_sm_reflects"
   ],
   "note": ""
  },
  {
   "property": "C07",
   "status": "proved",
   "theorems": [
    "C07_trn",
    "C07_trn_zero",
    "C07_nearest",
    "C07_RND_comment_wrong"
   ],
   "note": "The source comment on RND (ties to even) is wrong; C07_RND_comment_wrong."
  },
  {
   "property": "C08",
   "status": "proved",
   "theorems": [
    "C08_no_overflow_same",
    "C08_error_bound",
    "C08_differ_on_overflow"
   ],
   "note": ""
  },
  {
   "property": "C09",
   "status": "proved",
   "theorems": [
    "C09_result_t_covers",
    "C09_heterogeneous_iff"
   ],
   "note": ""
  },
  {
   "property": "C10",
   "status": "proved",
   "theorems": [
    "C10_inference_on_grid",
    "C10_idempotent"
   ],
   "note": ""
  },
  {
   "property": "C11",
   "status": "proved",
   "theorems": [
    "C11_inference_total",
    "C11_inference_is_standard_round",
    "C11_unknown_name_rejected_in_training",
    "C11_unknown_name_accepted_in_inference"
   ],
   "note": ""
  },
  {
   "property": "C12",
   "status": "proved",
   "theorems": [
    "C12_train_equals_inference",
    "C12_needs_exact_q_value"
   ],
   "note": "The converse direction (exact_q_value=False) is shown to fail by C12_needs_exact_q_value."
  },
  {
   "property": "C13",
   "status": "proved",
   "theorems": [
    "C13_dual_value",
    "C13_training_gradient",
    "C13_inference_gradient",
    "C13_scale_grad",
    "C13_fp_bits"
   ],
   "note": "Gradients by forward-mode dual numbers with tf.stop_gradient; stated for one scalar parameter at a time."
  },
  {
   "property": "C14",
   "status": "proved",
   "theorems": [
    "C14_stochastic_adjacent",
    "C14_unbiased"
   ],
   "note": ""
  },
  {
   "property": "C15",
   "status": "proved",
   "theorems": [
    "C15_clip_invariant"
   ],
   "note": "Quantizer calls. The bias quantization of the very first call is treated under C24."
  },
  {
   "property": "C16",
   "status": "proved",
   "theorems": [
    "C16_record_is_extrema",
    "C16_batching_irrelevant"
   ],
   "note": "Shapes of the reduction are treated under C55/C56."
  },
  {
   "property": "C17",
   "status": "proved",
   "theorems": [
    "C17_covers",
    "C17_covers_pos_only"
   ],
   "note": "log2 is taken exact (no float32 rounding of np.log2)."
  },
  {
   "property": "C18",
   "status": "proved",
   "theorems": [
    "C18_minimal",
    "C18_minimal_pos_only"
   ],
   "note": ""
  },
  {
   "property": "C19",
   "status": "proved",
   "theorems": [
    "C19_untraced_refused",
    "C19_reset_then_refused",
    "C19_traced_accepted"
   ],
   "note": ""
  },
  {
   "property": "C20",
   "status": "proved",
   "theorems": [
    "C20_hquantize_eq_proxy",
    "C20_iff"
   ],
   "note": "C20_iff: exact condition for every input, also outside of the recorded range."
  },
  {
   "property": "C21",
   "status": "proved",
   "theorems": [
    "C21_rounding_absorbed",
    "C21_half_lsb",
    "C21_auto_truncates"
   ],
   "note": ""
  },
  {
   "property": "C22",
   "status": "proved",
   "theorems": [
    "C22_one_bitwidth_per_channel",
    "C22_per_channel_last",
    "C22_channels_first_only_scalar"
   ],
   "note": ""
  },
  {
   "property": "C23",
   "status": "proved",
   "theorems": [
    "C23_masked_iff",
    "C23_masked_bias",
    "C23_pruned_proxy_zero",
    "C23_pruned_hgq_zero"
   ],
   "note": ""
  },
  {
   "property": "C24",
   "status": "proved",
   "theorems": [
    "C24_iff",
    "C24_linear_eq_proxy",
    "C24_range_needed"
   ],
   "note": "Scope of the statement: WF (channels_last or single bitwidth, bitwidths inside bw_clip). C24_range_needed shows the range hypothesis is needed. Excluded cases: C61, C62. C24_iff: exact condition for every input."
  },
  {
   "property": "C25",
   "status": "proved",
   "theorems": [
    "C25_relu_eq_proxy"
   ],
   "note": "Same scope as C24; any rounding strategy, both overflow modes."
  },
  {
   "property": "C26",
   "status": "proved",
   "theorems": [
    "C26_in_range",
    "C26_bit_accurate",
    "C26_trace_minmax"
   ],
   "note": "Exact arithmetic (C57/C58 for float32). Recorded ranges below 2^32, fractional bits at least -32. Connectivity of linear layers is an arbitrary tap list. C106 gives the exact condition for every input."
  },
  {
   "property": "C27",
   "status": "proved",
   "theorems": [
    "C27_activation_iff",
    "C27_add_iff",
    "C27_activation_eq_proxy",
    "C27_add_eq_proxy"
   ],
   "note": "C27_activation_iff, C27_add_iff: exact condition for every input."
  },
  {
   "property": "C28",
   "status": "partial",
   "theorems": [
    "C28_kernel",
    "C28_bias_gap",
    "C28_bias_partial",
    "C28_bias_agree_iff",
    "C28_no_scale_gap",
    "C28_moving_mean_converges",
    "C28_beta_fails",
    "C28_no_center_fails",
    "C28_no_scale_fails"
   ],
   "note": "Kernel: proved for both settings of scale. Bias: violated by the code unless bn_beta=0 (training ignores bn_beta), for center=False with a bias (training adds no bias), and for scale=False (inference still multiplies the mean by rsqrt(1+eps)); exact gaps and counterexamples proved."
  },
  {
   "property": "C29",
   "status": "partial",
   "theorems": [
    "C29_iff",
    "C29_zero_mean_partial",
    "C29_fails",
    "C29_moving_stats"
   ],
   "note": "Violated by the code: the mean is divided by the kernel instead of multiplied; C29_iff characterises exactly when the result is right, C29_fails is a counterexample."
  },
  {
   "property": "C30",
   "status": "proved",
   "theorems": [
    "C30_sound",
    "C30_minimal",
    "C30_unrepresentable_signal"
   ],
   "note": "np.int64 overflow and float rounding of arr * 2**f are not modelled."
  },
  {
   "property": "C31",
   "status": "partial",
   "theorems": [
    "C31_float32_iff",
    "C31_iff",
    "C31_true_bits_partial",
    "C31_fails_at_32_bits",
    "C31_float32_overcount",
    "C31_sound_any_rounding"
   ],
   "note": "Holds for at most 31 fractional bits in exact arithmetic; C31_iff: exactly for arrays with at most 32 fractional bits and no entry +-2^-32; fails for +-2^-32 (C31_fails_at_32_bits) and overcounts powers of two in float32 (C31_float32_overcount); C31_float32_iff: for float32 arrays in float32 exactly if, besides, the largest magnitude is no power of two from 2^-8 on."
  },
  {
   "property": "C32",
   "status": "partial",
   "theorems": [
    "C32_kernel_float32_iff",
    "C32_act_bw_partial",
    "C32_needs_grid",
    "C32_act_bw_relu",
    "C32_act_bw_iff",
    "C32_act_bw_negative",
    "C32_kernel_bw_partial",
    "C32_float32_underestimates"
   ],
   "note": "Exact arithmetic and grid-aligned ranges; fails in float32 (C32_float32_underestimates) and for ranges clamped off the grid (C32_needs_grid). For any range: always with relu (C32_act_bw_relu), otherwise exactly under the condition of C32_act_bw_iff. C32_kernel_float32_iff: for kernels in float32 exactly if no weight of the largest magnitude is a power of two from 2^-8 on that is also the resolution of its quantizer."
  },
  {
   "property": "C33",
   "status": "proved",
   "theorems": [
    "C33_activation_covers",
    "C33_fails_beyond_20_bits"
   ],
   "note": "C33_fails_beyond_20_bits shows the 20-bit limit is needed."
  },
  {
   "property": "C34",
   "status": "partial",
   "theorems": [
    "C34_avg_pool_error",
    "C34_linear_bias_partial",
    "C34_subtract_iff",
    "C34_avg_pool_iff",
    "C34_linear_iff",
    "C34_dot_iff",
    "C34_concatenate",
    "C34_max_pool",
    "C34_add",
    "C34_subtract_partial",
    "C34_subtract_unsigned_fails",
    "C34_avg_pool_partial",
    "C34_avg_pool_fails",
    "C34_dot_partial",
    "C34_dot_length_fails",
    "C34_dot_signed_fails",
    "C34_linear_partial",
    "C34_linear_signed_fails",
    "C34_linear_bias_fails"
   ],
   "note": "Proved for concatenation, max pooling and addition for all inputs. The code violates it for the other layers, with counterexamples; C34_subtract_iff, C34_avg_pool_iff, C34_dot_iff and C34_linear_iff say exactly for which types, window sizes, lengths and weights the derived type contains every output."
  },
  {
   "property": "C35",
   "status": "partial",
   "theorems": [
    "C35_query_keeps_outputs_partial",
    "C35_wrap_same_sign",
    "C35_wide_upstream_unchanged",
    "C35_query_idempotent",
    "C35_below_resolution_fails",
    "C35_unsigned_into_signed_wrap_fails",
    "C35_signed_into_unsigned_wrap_fails",
    "C35_sat_fails",
    "C35_sat_sym_fails",
    "C35_heterogeneous_fails",
    "C35_heterogeneous_wrap",
    "C35_heterogeneous_idempotent",
    "C35_covered_unchanged",
    "C35_elementwise_wrap",
    "C35_elementwise_idempotent",
    "C35_pruned",
    "C35_pruned_idempotent",
    "C35_wrap_iff",
    "C35_sat_iff",
    "C35_wrap_in_type",
    "C35_sat_in_type",
    "C35_wrap_trn",
    "C35_wrap_rnd",
    "C35_sat_negative_width"
   ],
   "note": "Proved for homogeneous SAT/WRAP quantizers under four explicit conditions, unconditionally for wide upstream types, plus idempotence; kernel-checked counterexamples for every excluded combination (the code does change outputs there). Heterogeneous wrapping quantizers whose sign and integer bits are kept are covered too (C35_heterogeneous_wrap, C35_heterogeneous_idempotent). Idempotence holds for every quantizer and upstream type: C111_quantizer. C35_wrap_iff and C35_sat_iff give the exact condition, in every rounding mode, for homogeneous wrapping and saturating quantizers of at least one bit (C35_wrap_trn, C35_wrap_rnd: the same in numbers); C35_sat_negative_width: the code can store a negative width, after which the quantizer no longer maps zero to zero."
  },
  {
   "property": "C36",
   "status": "proved",
   "theorems": [
    "C36_merged_cast_invisible",
    "C36_other_exact"
   ],
   "note": ""
  },
  {
   "property": "C37",
   "status": "proved",
   "theorems": [
    "C37_registered",
    "C37_input_cast_invisible",
    "C37_input_layer"
   ],
   "note": ""
  },
  {
   "property": "C38",
   "status": "proved",
   "theorems": [
    "C38_wrap_accumulation_exact",
    "C38_order_irrelevant",
    "C38_saturating_accumulation_exact"
   ],
   "note": ""
  },
  {
   "property": "C39",
   "status": "proved",
   "theorems": [
    "C39_kernel_layer",
    "C39_activation_layer",
    "C39_other_layer",
    "C39_unquantized_input_refused",
    "C39_unquantized_input_offset_accepted",
    "C39_unquantized_activation_accepted"
   ],
   "note": "Also proved: unquantized inputs are accepted with accum_fp_max_offset and in front of activations."
  },
  {
   "property": "C40",
   "status": "proved",
   "theorems": [
    "C40_roundtrip",
    "C40_padded",
    "C40_nuke",
    "C40_injective",
    "C40_decimal"
   ],
   "note": ""
  },
  {
   "property": "C41",
   "status": "proved",
   "theorems": [
    "C41_lut_is_quantized_activation",
    "C41_lut_before_fused_quantizer"
   ],
   "note": ""
  },
  {
   "property": "C42",
   "status": "partial",
   "theorems": [
    "C42_lut_iff_fits_partial",
    "C42_exact",
    "C42_crash_at_limit",
    "C42_crash_on_zero_width"
   ],
   "note": "False of the code at the constructor's own limits (LUT_SIZE_LIMITATION, 4096 by default, compared strictly) and for types without bits: C42_exact gives, for all limits and types, exactly when the layer is kept, when it becomes a table and when conversion crashes. Concrete crashes: T=4096 with a 12-bit input, and inputs without bits."
  },
  {
   "property": "C43",
   "status": "proved",
   "theorems": [
    "C43_convert_same_function",
    "C43_convert_succeeds",
    "C43_flatten"
   ],
   "note": ""
  },
  {
   "property": "C44",
   "status": "proved",
   "theorems": [
    "C44_applied_once",
    "C44_only_needed",
    "C44_flatten_exactly",
    "C44_needed_applied"
   ],
   "note": ""
  },
  {
   "property": "C45",
   "status": "proved",
   "theorems": [
    "C45_namer",
    "C45_first_seen_renamed",
    "C45_names_unique"
   ],
   "note": "C45_first_seen_renamed shows that a first-seen name is renamed if it was handed out as a generated name."
  },
  {
   "property": "C46",
   "status": "proved",
   "theorems": [
    "C46_settles",
    "C46_guard_never_trips",
    "C46_fixed_point"
   ],
   "note": ""
  },
  {
   "property": "C47",
   "status": "partial",
   "theorems": [
    "C47_inference_keeps_ranges_partial",
    "C47_no_bops_keeps_recording"
   ],
   "note": "Violated by the code for no_bops_computation=True: C47_no_bops_keeps_recording is a counterexample; proved for every other option."
  },
  {
   "property": "C48",
   "status": "partial",
   "theorems": [
    "C48_extends_partial",
    "C48_ordinary_first_call",
    "C48_rst_false_records_nothing",
    "C48_second_call_ignores_data",
    "C48_second_call_covers",
    "C48_extends_cover_partial",
    "C48_cut_twice"
   ],
   "note": "Violated by the code after an ordinary first call: the second call then ignores its data, whatever its other arguments (C48_second_call_ignores_data), and only applies its cover factor again to the ranges it finds (C48_second_call_covers); with cover factor 1 it changes nothing (C48_ordinary_first_call; C48_rst_false_records_nothing is a concrete case). Proved when the first call used no_bops_computation=True and cover factor 1, for any cover factor of the second call unless a sigmoid or tanh layer has negative fractional bits (C48_extends_cover_partial), for factor 1 in all models (C48_extends_partial); in the remaining case it fails as well (C48_cut_twice)."
  },
  {
   "property": "C49",
   "status": "partial",
   "theorems": [
    "C49_listed_layers_partial",
    "C49_nested_not_traced",
    "C49_nested_untouched",
    "C49_reset_reaches_nested"
   ],
   "note": "Violated by the code: trace_minmax does not enter nested models and leaves each of their layers exactly as it was (C49_nested_untouched; C49_nested_not_traced is a concrete case). Proved: layers listed by the model itself; ResetMinMax reaches every depth."
  },
  {
   "property": "C50",
   "status": "proved",
   "theorems": [
    "C50_cover_widens",
    "C50_cover_narrows",
    "C50_cover_refused"
   ],
   "note": "Any model, dataset, options and range; factors <= 0 are refused. C26_trace_minmax adds that a factor >= 1 keeps bit accuracy."
  },
  {
   "property": "C51",
   "status": "proved",
   "theorems": [
    "C51_float32",
    "C51_reused_refused",
    "C51_dense",
    "C51_conv1d",
    "C51_conv2d",
    "C51_zero_weights",
    "C51_weight_bits",
    "C51_dead_inputs",
    "C51_nonneg",
    "C51_monotone",
    "C51_wider_range",
    "C51_trace_sum",
    "C51_free_bops",
    "C51_in_model"
   ],
   "note": "Weights with at most 31 fractional bits (the default clip is 23). The digit count of a weight is for exact arithmetic; in float32 get_arr_bits can count more (C31_float32_overcount), zero weights still count 0; C51_float32: in float32 the counts agree if the largest weight is no power of two from 2^-8 on."
  },
  {
   "property": "C52",
   "status": "proved",
   "theorems": [
    "C52_predictions",
    "C52_batch_size",
    "C52_empty"
   ],
   "note": "Models with one output (several outputs: C73). An empty dataset raises (C52_empty)."
  },
  {
   "property": "C53",
   "status": "partial",
   "theorems": [
    "C53_defaults_partial",
    "C53_get_isolated",
    "C53_get_fresh",
    "C53_layer_gets_copies",
    "C53_wrong_keys",
    "C53_wrong_keys_paq",
    "C53_set_accepted",
    "C53_set_keeps_reference",
    "C53_build_changes_defaults"
   ],
   "note": "Violated by the code: set_default_*_conf keeps a reference (C53_set_keeps_reference, C53_build_changes_defaults). Proved for programs that leave the dict passed alone; isolation of get_default_*_conf is proved without conditions (C53_get_isolated)."
  },
  {
   "property": "C54",
   "status": "partial",
   "theorems": [
    "C54_rounding_partial",
    "C54_bad_configuration",
    "C54_default_configuration",
    "C54_permanent",
    "C54_shared_with_activation"
   ],
   "note": "Violated by the code when a dense layer shares its 'auto' dict with an HActivation (C54_shared_with_activation). Proved for every other sharing and build order, and without conditions for layers that use the defaults (C54_default_configuration)."
  },
  {
   "property": "C55",
   "status": "proved",
   "theorems": [
    "C55_shape",
    "C55_known",
    "C55_fibers",
    "C55_modes",
    "C55_bad_dimension"
   ],
   "note": "Dimensions and modes of skip_dims; also shapes with unknown dimensions (counted once), error branches and per-element degeneracy."
  },
  {
   "property": "C56",
   "status": "partial",
   "theorems": [
    "C56_record_partial",
    "C56_other_dimensions",
    "C56_except_1st",
    "C56_iff",
    "C56_right"
   ],
   "note": "Violated by the code when a dimension with its own bitwidths (of size other than 1) precedes a shared one (C56_other_dimensions, C56_except_1st). C56_iff: recording succeeds exactly when this is not so and no dimension is listed twice; C56_right: whenever it succeeds, the recorded values are right."
  },
  {
   "property": "C57",
   "status": "partial",
   "theorems": [
    "C57_fixed_point_partial",
    "C57_just_below_half",
    "C57_floor",
    "C57_round_partial",
    "C57_round_just_below_half",
    "C57_round_bound_sharp",
    "C57_fixed_point_iff",
    "C57_round_iff"
   ],
   "note": "Violated by the code at one input per rounding mode and format: the largest float32 number below half a unit (C57_just_below_half, C57_round_just_below_half). Proved for all other inputs; exact for every input with the floor strategy. C107 shows that overflow and subnormal numbers make no difference. C57_fixed_point_iff and C57_round_iff: exactly which inputs, modes and formats give another value."
  },
  {
   "property": "C58",
   "status": "proved",
   "theorems": [
    "C58_any_order",
    "C58_types",
    "C58_bound_sharp"
   ],
   "note": "Any order and association, with or without fused multiply-add; the bound is sharp."
  },
  {
   "property": "C59",
   "status": "proved",
   "theorems": [
    "C59_bits",
    "C59_bits_floor",
    "C59_shared",
    "C59_tiny_weight",
    "C59_twice"
   ],
   "note": "Real logarithms with an explicit tolerance of 1/4 for their float32 error (rounding strategies); exact logarithms for 'floor' and shared bitwidths. C59_tiny_weight and C59_twice show the limits."
  },
  {
   "property": "C60",
   "status": "partial",
   "theorems": [
    "C60_wrap_iff",
    "C60_quantized_bits",
    "C60_quantized_bits_wrap_partial",
    "C60_wrap_differs",
    "C60_one_bit_differs",
    "C60_quantized_relu",
    "C60_relu_slope_ignored",
    "C60_binary_partial",
    "C60_binary_scale_ignored",
    "C60_refused",
    "C60_layer",
    "C60_activation",
    "C60_config",
    "C60_config_refused"
   ],
   "note": "Violated by the code with the default overflow mode WRAP (C60_wrap_differs), for one-bit signed quantizers (C60_one_bit_differs), for the scale of binary (C60_binary_scale_ignored) and the slope of quantized_relu (C60_relu_slope_ignored), which are ignored. Proved otherwise. C60_wrap_iff: exactly the inputs on which quantized_bits converted with WRAP agrees."
  },
  {
   "property": "C61",
   "status": "partial",
   "theorems": [
    "C61_iff",
    "C61_channels_first_fails",
    "C61_single_bitwidth_partial",
    "C61_no_bias_partial"
   ],
   "note": "Violated by the code: C61_channels_first_fails is a counterexample; proved for a single bitwidth and for layers without bias. C61_iff: exact condition, the two roundings of the bias must be equal."
  },
  {
   "property": "C62",
   "status": "partial",
   "theorems": [
    "C62_iff",
    "C62_first_call_fails",
    "C62_repeat_call_partial",
    "C62_later_calls",
    "C62_same_bias_partial",
    "C62_no_bias"
   ],
   "note": "Violated by the code: C62_first_call_fails is a counterexample (bias quantized before clipping). Proved inside the clip range, for layers without bias and, in general, when the bias quantizes to the same values before and after clipping (C62_same_bias_partial); the second and all later calls always agree (C62_later_calls). C62_iff: exact condition, the bias must round to the same value before and after clipping."
  },
  {
   "property": "C63",
   "status": "partial",
   "theorems": [
    "C63_tanh_negative_bits",
    "C63_nonneg_bits_partial",
    "C63_iff_partial",
    "C63_values"
   ],
   "note": "Violated by the code: C63_tanh_negative_bits is a counterexample; proved for non-negative fractional bits; C63_iff_partial is the exact condition and C63_values says when it fails."
  },
  {
   "property": "C64",
   "status": "partial",
   "theorems": [
    "C64_gap",
    "C64_zero_bias_partial",
    "C64_bias_fails",
    "C64_iff"
   ],
   "note": "Violated by the code for a non-zero bias (the bias is not scaled): exact gap C64_gap, exact condition C64_iff, counterexample C64_bias_fails; proved for zero bias."
  },
  {
   "property": "C65",
   "status": "proved",
   "theorems": [
    "C65_kernel_quantized",
    "C65_bias_quantized",
    "C65_bias_bitwidth_is_max"
   ],
   "note": ""
  },
  {
   "property": "C66",
   "status": "partial",
   "theorems": [
    "C66_no_truncation_partial",
    "C66_other_rounding_fails",
    "C66_other_rounding_input_fails",
    "C66_input_sat_zero_fails",
    "C66_input_wrap_sm_fails",
    "C66_unsigned_into_signed_wrap_fails",
    "C66_rounding_iff",
    "C66_derived_iff",
    "C66_two_extra_bits_iff",
    "C66_wrap_iff"
   ],
   "note": "Fails: for every rounding mode other than TRN/RND, for SAT_ZERO and WRAP_SM inputs, and for unsigned values before signed wrapping quantizers (counterexamples proved). Proved when nothing is truncated; the safe modes are C36/C37. C66_rounding_iff gives the exact table for the rounding mode: which modes, and with how many extra bits, cannot see the truncation; C66_derived_iff and C66_two_extra_bits_iff state it for the types the code derives (safe exactly for TRN, RND, or at most two bits rounded away). C66_wrap_iff: exact condition for wrapping quantizers with these modes."
  },
  {
   "property": "C67",
   "status": "proved",
   "theorems": [
    "C67_fused_quantizer",
    "C67_fused_iff"
   ],
   "note": ""
  },
  {
   "property": "C68",
   "status": "partial",
   "theorems": [
    "C68_bias_type_holds_bias_partial",
    "C68_fine_bias_fails",
    "C68_large_bias_fails",
    "C68_iff"
   ],
   "note": "Holds iff the bias is a value of the accumulator type (C68_iff, with that type spelled out); counterexamples proved for finer and larger biases."
  },
  {
   "property": "C69",
   "status": "partial",
   "theorems": [
    "C69_second_output_lost",
    "C69_nested_outputs_partial",
    "C69_all_outputs",
    "C69_all_outputs_succeeds",
    "C69_selected_output"
   ],
   "note": "The code violates it: C69_second_output_lost, and C69_selected_output for every nested model with one input and two or more outputs, whichever output is chosen. Proved for nested models with one output each. For any number of outputs C69_all_outputs gives what the flattened model computes: every reference to one tensor of a call is read as all tensors of the call."
  },
  {
   "property": "C70",
   "status": "partial",
   "theorems": [
    "C70_source_renamed",
    "C70_names_kept_partial",
    "C70_flatten_keeps_names_iff_partial"
   ],
   "note": "The code violates it: C70_source_renamed. Proved for transformers that replace every layer of the source; flattening keeps the names if and only if no two calls are of layers with the same name (C70_flatten_keeps_names_iff_partial)."
  },
  {
   "property": "C71",
   "status": "proved",
   "theorems": [
    "C71_model_proxy_agree",
    "C71_nested_model_bit_accurate"
   ],
   "note": "Convolution and dense layers as in C24/C25; nested models with one output each."
  },
  {
   "property": "C72",
   "status": "proved",
   "theorems": [
    "C72_tanh_table",
    "C72_sigmoid_table",
    "C72_table_full"
   ],
   "note": "tanh/sigmoid: for inputs with at least -2/-3 fractional bits."
  },
  {
   "property": "C73",
   "status": "partial",
   "theorems": [
    "C73_outputs_mixed",
    "C73_one_batch_partial",
    "C73_result_partial"
   ],
   "note": "Violated by the code: C73_outputs_mixed is a counterexample; proved when the dataset fits in one batch; C73_result_partial is exactly what is returned otherwise."
  },
  {
   "property": "C74",
   "status": "proved",
   "theorems": [
    "C74_dense",
    "C74_conv1d",
    "C74_conv2d",
    "C74_valid_padding",
    "C74_same_padding"
   ],
   "note": "Channels-last layers; real arithmetic (float32: C58)."
  },
  {
   "property": "C75",
   "status": "partial",
   "theorems": [
    "C75_layer",
    "C75_reshape",
    "C75_concat",
    "C75_max_pool_partial",
    "C75_max_pool_mixed",
    "C75_average_pool",
    "C75_permute",
    "C75_model_partial",
    "C75_permute_iff",
    "C75_max_pool_dominated",
    "C75_max_pool_unsigned_iff",
    "C75_average_pool_iff",
    "C75_concat_positions",
    "C75_pool_bits",
    "C75_flatten_first_iff",
    "C75_flatten_first"
   ],
   "note": "Violated by the code: C75_permute, C75_flatten_first (PFlatten with channels_first), C75_average_pool and C75_max_pool_mixed are counterexamples. Proved for HGQ layers, reshapes, concatenations, whole graphs of these, and max pooling over equal types. Exact conditions: C75_permute_iff (no position may move to one with another number of bits), C75_average_pool_iff (in each window no position has bits, or the window size is a power of two and only one has), C75_max_pool_unsigned_iff (in each window one type contains the others; sufficient for signed types too, C75_max_pool_dominated). C75_flatten_first_iff: the same for PFlatten with channels first."
  },
  {
   "property": "C76",
   "status": "partial",
   "theorems": [
    "C76_float32_partial",
    "C76_input_bits",
    "C76_train_ge_exact_partial",
    "C76_input_bits_relu",
    "C76_input_bits_iff",
    "C76_input_bits_stale_fails",
    "C76_model_float32_partial",
    "C76_calibrated_float32_partial",
    "C76_model_layer_partial",
    "C76_model_partial",
    "C76_calibrated_partial"
   ],
   "note": "Proved with the exact-arithmetic weight bits; in float32 get_arr_bits can report more than the estimate (C32_float32_underestimates). With ranges recorded under earlier bitwidths it fails (C76_input_bits_stale_fails); behind a relu it holds for any ranges (C76_input_bits_relu), otherwise exactly under the condition of C76_input_bits_iff. C76_model_partial lifts it to whole models: the BOPs in the reported loss are at least the exact BOPs of the model. C76_calibrated_partial: so after trace_minmax over any data. C76_float32_partial: with float32 weight bits under the condition of C32_kernel_float32_iff; for whole models and after calibration in C76_model_float32_partial and C76_calibrated_float32_partial."
  },
  {
   "property": "C77",
   "status": "partial",
   "theorems": [
    "C77_estimate_partial",
    "C77_rows",
    "C77_rows_rectangular",
    "C77_iff"
   ],
   "note": "Violated by the code when a dimension with its own bitwidths (of size other than 1) precedes a shared one (C77_rows, C77_rows_rectangular). C77_iff: the estimate is right for all kernels exactly when this is not so and no dimension is listed twice."
  },
  {
   "property": "C78",
   "status": "proved",
   "theorems": [
    "C78_layer_eq_proxy",
    "C78_layer_exact",
    "C78_bound_needed"
   ],
   "note": "Composition of C24, C25, C57 and C58; the excluded inputs of C57 cannot occur under the bound. C78_bound_needed shows that the bound cannot be dropped."
  },
  {
   "property": "C79",
   "status": "partial",
   "theorems": [
    "C79_settings",
    "C79_bn_loads_iff",
    "C79_bn_partial",
    "C79_bn_epsilon_lost",
    "C79_quantizer",
    "C79_quantizer_values",
    "C79_quantizer_refused",
    "C79_quantizer_negative_bits",
    "C79_lut"
   ],
   "note": "Proved for all classes which settings survive; the code forgets epsilon, momentum, center, scale and others of the fused batch-norm layers (C79_bn_epsilon_lost, C79_bn_loads_iff), conv_op, do_adapt_kernel_bits, and get_config rewrites quantizers with negative bits."
  },
  {
   "property": "C80",
   "status": "partial",
   "theorems": [
    "C80_outputs",
    "C80_conversion_refused",
    "C80_retrace_partial"
   ],
   "note": "Outputs proved. The recorded ranges are not saved, so conversion of a loaded model is refused until it is traced again (C80_conversion_refused); re-tracing on the same data restores ranges and proxy (C80_retrace_partial)."
  },
  {
   "property": "C81",
   "status": "partial",
   "theorems": [
    "C81_interruptions_partial",
    "C81_adapted_once",
    "C81_fused_dense_readapts"
   ],
   "note": "Holds for all layers but HDenseBatchNorm, whose flag for the delayed adaption is set again by loading: the first training step after loading shifts the learned bitwidths (C81_fused_dense_readapts)."
  },
  {
   "property": "C82",
   "status": "partial",
   "theorems": [
    "C82_accepted",
    "C82_plain_partial",
    "C82_callable_iff",
    "C82_foreign_relu"
   ],
   "note": "The code violates it: a callable named relu that is not tf.keras.activations.relu (tf.nn.relu) is accepted and applied by the layer but left out of the proxy (C82_foreign_relu). Proved for None, strings and the Keras functions, and for other callables exactly where the activation does nothing (C82_callable_iff)."
  },
  {
   "property": "C83",
   "status": "partial",
   "theorems": [
    "C83_close",
    "C83_large_equal_partial",
    "C83_range_covers",
    "C83_relu_covers_partial",
    "C83_differs",
    "C83_wasted_bits",
    "C83_relu_overflow"
   ],
   "note": "The code violates it: results below 64 units may be off by up to 2^-17 units (C83_differs: 2^-27 instead of 0), zero tensors then get bits (C83_wasted_bits), and with relu the derived type can be too small so that the proxy returns 0 instead of 1/32 (C83_relu_overflow). Proved: the bound, equality from 64 units on, and that without relu the type always contains the inference result."
  },
  {
   "property": "C84",
   "status": "partial",
   "theorems": [
    "C84_scores",
    "C84_standard",
    "C84_average",
    "C84_permutation",
    "C84_mask",
    "C84_all_masked",
    "C84_value_dim",
    "C84_declared_shape",
    "C84_needs_static_shapes"
   ],
   "note": "Values, weights, permutation invariance and masking are proved in full. The code violates the rest: compute_output_shape announces value_dim*num_heads channels while size(v) channels are returned (C84_declared_shape), and with an unknown batch size the call raises (C84_needs_static_shapes)."
  },
  {
   "property": "C85",
   "status": "proved",
   "theorems": [
    "C85_history_independent",
    "C85_empty_data",
    "C85_default_batches"
   ],
   "note": "Models whose HGQ layers are all top-level layers; nested models are not traced at all (C49_nested_not_traced). Empty calibration data: C85_empty_data."
  },
  {
   "property": "C86",
   "status": "partial",
   "theorems": [
    "C86_value",
    "C86_finite_partial",
    "C86_unrecorded",
    "C86_unrecorded_relu",
    "C86_after_reset"
   ],
   "note": "The code violates it: while a range is unrecorded (fresh model, or after ResetMinMax) act_bw is inf, so each dense or convolution layer behind it adds inf or nan, and nan for the default beta=0 (C86_unrecorded, C86_after_reset). With recorded ranges the claim is proved (C86_finite_partial, C86_value)."
  },
  {
   "property": "C87",
   "status": "proved",
   "theorems": [
    "C87_value",
    "C87_gradient",
    "C87_pulls_down",
    "C87_kernel_stops_iff",
    "C87_regularizer"
   ],
   "note": "Automatic differentiation as dual numbers; recorded ranges are variables without gradient. The layer in front is one with a quantizer."
  },
  {
   "property": "C88",
   "status": "proved",
   "theorems": [
    "C88_value",
    "C88_switched_off",
    "C88_mean_between",
    "C88_var_nonneg",
    "C88_layer",
    "C88_bad_momentum"
   ],
   "note": "Exact arithmetic. The constructor accepts a momentum outside [0,1], for which the variance can become negative (C88_bad_momentum)."
  },
  {
   "property": "C89",
   "status": "partial",
   "theorems": [
    "C89_registration_keeps_function_partial",
    "C89_types_history_independent_partial",
    "C89_derived_types_hold_partial",
    "C89_registration_changes_output"
   ],
   "note": "The code violates it: a saturating quantizer with more fractional bits than its input is shrunk by the registration and then saturates at another value (C89_registration_changes_output: 31/4 becomes 7). Proved for every graph whose layers fit the types of their inputs (PLay.Fits), which covers heterogeneous wrapping quantizers behind a type with more integer bits and, for homogeneous wrapping and saturating quantizers of at least one bit behind such a type, exactly the cases of C35_wrap_iff and C35_sat_iff (except signed types of negative width). Independence of the derived types from the history holds in every graph: C111_types."
  },
  {
   "property": "C90",
   "status": "proved",
   "theorems": [
    "C90_only_widths_shrink",
    "C90_storage_location",
    "C90_every_layer_registered_once",
    "C90_fails_without_quantizer"
   ],
   "note": "For every graph, without the side conditions of C89."
  },
  {
   "property": "C91",
   "status": "partial",
   "theorems": [
    "C91_data_path_exact_partial",
    "C91_computed_inputs_exact_partial",
    "C91_wrapping_output_changes"
   ],
   "note": "The code violates it: an unsigned and a signed layer, concatenated and quantized to a narrower wrapping type: the unsigned layer is registered with the quantizer's integer bits but without its sign bit and wraps in half the range (C91_wrapping_output_changes: -3 becomes 1). Proved for every graph with Fits (C89) whose consumers use the values in the ways listed in PGraph.DataPath (rounding TRN or RND, no sign-magnitude wrapping, signed wrapping only of signed values, stored types with at least one bit that resolve the range)."
  },
  {
   "property": "C92",
   "status": "partial",
   "theorems": [
    "C92_deployed_partial",
    "C92_data_path_partial",
    "C92_registration_changes_calibration",
    "C92_mild_partial",
    "C92_aggressive_all_inputs_partial",
    "C92_conservative_outside_changes"
   ],
   "note": "The code violates it: two HQuantize layers of which the second rounds 7/8 up to 1, outside the type inferred for the first; registration drops the integer bit and the output 1 on the calibration sample becomes 0 (WRAP) or 1/2 (SAT) (C92_registration_changes_calibration). Proved: with Fits (C89) at every layer, in both modes, also for the data path with stored types; for the quantizers made from recorded ranges only a condition on fractional widths is needed (FPQ.Mild), in both modes, because the recorded ranges were reached by values of the upstream type (trace_attained, deploy_recorded); in WRAP mode registration then changes nothing on any input, in SAT mode it can outside the recorded ranges (C92_conservative_outside_changes). Missing: layers that do not fit."
  },
  {
   "property": "C93",
   "status": "partial",
   "theorems": [
    "C93_inference_keeps_ranges_partial",
    "C93_recompile_partial",
    "C93_compiled_goes_on_recording",
    "C93_interrupted",
    "C93_compiled_does_not_record",
    "C93_exact_keeps",
    "C93_exact_records"
   ],
   "note": "False of the code in both directions: after an interrupted calibration or no_bops_computation=True layers go on recording (C93_interrupted), and a predict made then compiles a function that goes on recording even after later complete calibrations (C93_compiled_goes_on_recording); and a compiled predict made before never records (C93_compiled_does_not_record). Proved: in every history whose calibrations complete with the BOPs computation inference keeps the ranges, and a complete calibration followed by compile repairs any other history. For all histories, also with interrupted calibrations and no_bops_computation=True, C93_exact_keeps and C93_exact_records say which inferences record (Spec.recordingAfter) and what: the others keep all ranges. Missing: the property as stated, which the code violates."
  },
  {
   "property": "C94",
   "status": "partial",
   "theorems": [
    "C94_adapted_at_build",
    "C94_not_adapted",
    "C94_eager_first_partial",
    "C94_one_fit_step_partial",
    "C94_every_fit_step",
    "C94_bits_run_to_the_lower_clip",
    "C94_weights_vanish",
    "C94_fit_bits",
    "C94_exact",
    "C94_batchnorm_never_adapts"
   ],
   "note": "False of the code for HDenseBatchNorm and the fused convolutions under model.fit: the compiled training function adapts at every step (C94_every_fit_step), so the bitwidths of weights above a bound below 1 fall to the lower clip and all weights quantize to zero after enough steps (C94_bits_run_to_the_lower_clip, C94_weights_vanish); HBatchNormalization in contrast never adapts (C94_batchnorm_never_adapts). Proved: layers adapted at build time, layers configured not to adapt, and fused layers whose first training step is an eager call or that take only one compiled step. C94_exact gives the bitwidths of a fused layer after every history (adaptedActually), compiled training of any length included."
  },
  {
   "property": "C95",
   "status": "partial",
   "theorems": [
    "C95_same_dispatch_partial",
    "C95_union_members",
    "C95_lost_registrations",
    "C95_iff"
   ],
   "note": "False for register(A | B, f) and for annotations with typing.Union, which the patch silently drops (C95_lost_registrations). Proved: all forms the package itself uses. Classes without virtual subclasses. C95_iff: exactly which forms of registration have the same outcome."
  },
  {
   "property": "C96",
   "status": "partial",
   "theorems": [
    "C96_restored_partial",
    "C96_nested",
    "C96_iff"
   ],
   "note": "False for nested use, after which everything printed is lost for ever (C96_nested). Proved: any number of blocks that are not nested, with exceptions anywhere. C96_iff: for every program the streams are restored exactly if no block is entered inside another one."
  },
  {
   "property": "C97",
   "status": "partial",
   "theorems": [
    "C97_transparent_iff_partial",
    "C97_save_load",
    "C97_array_types",
    "C97_outside_changes",
    "C97_model_partial"
   ],
   "note": "False for arrays of a type other than int8 (C97_array_types). Proved: Python numbers and lists, stored as int8: transparent exactly on values of the type; saving and loading; a whole model behind a Signature. "
  },
  {
   "property": "C98",
   "status": "proved",
   "theorems": [
    "C98_bit_accurate",
    "C98_in_range",
    "C98_exact",
    "C98_proxy_exact",
    "C98_untraced_refused",
    "C98_bound_needed"
   ],
   "note": "Under the magnitude bounds of the statement (Fits, TypesFit, Bounded); C98_bound_needed shows that the bound on accumulated magnitudes is needed. Overflow to infinity and subnormal numbers are not modelled."
  },
  {
   "property": "C99",
   "status": "proved",
   "theorems": [
    "C99_reused_kernel_refused",
    "C99_in_range",
    "C99_bit_accurate",
    "C99_untraced_refused",
    "C99_range_exact"
   ],
   "note": "C99_range_exact is for layers whose ranges trace_minmax does not adjust (softmax, sigmoid and tanh layers have their ranges clipped) and states nothing about kernel layers, which are called once and covered by C16 and C26; ranges below 2^32 for the proxy, as in C26"
  },
  {
   "property": "C100",
   "status": "partial",
   "theorems": [
    "C100_behind_reused_passive",
    "C100_quantizers_partial",
    "C100_exact",
    "C100_trace_counts",
    "C100_behind_reused_concatenation"
   ],
   "note": "Violated by the code: behind a reshape, pooling or concatenation layer called several times the AssertionError meant to forbid it is caught by the except clause of input_bw and the layer adds nothing to the loss (C100_behind_reused_passive, C100_behind_reused_concatenation). C100_exact: in a model that can be called this happens exactly behind the layers of Spec.SwitchedOff; every other layer adds what it adds when all layers are called once (C100_quantizers_partial is the case of quantizer and Signature layers called several times). trace_minmax raises or counts right (C100_trace_counts); behind a reused concatenation it does not raise."
  },
  {
   "property": "C101",
   "status": "proved",
   "theorems": [
    "C101_pruned_stays_zero",
    "C101_recorded_zero"
   ],
   "note": "No assumption on well-formedness of the graph, only that stored sign entries are not negative. Fractional bits at least -32 for the version stated on recorded ranges."
  },
  {
   "property": "C102",
   "status": "proved",
   "theorems": [
    "C102_recorded_types",
    "C102_limit_is_sharp",
    "C102_queries",
    "C102_recorded_queries",
    "C102_wide_quantizer_fails"
   ],
   "note": "The limits are part of the statement; C102_limit_is_sharp and C102_wide_quantizer_fails show what happens beyond them."
  },
  {
   "property": "C103",
   "status": "proved",
   "theorems": [
    "C103_more_data_ranges",
    "C103_same_samples",
    "C103_more_data_types"
   ],
   "note": ""
  },
  {
   "property": "C104",
   "status": "proved",
   "theorems": [
    "C104_saturates",
    "C104_linear_saturates",
    "C104_relu_saturates",
    "C104_wraps",
    "C104_linear_wraps",
    "C104_aggressive_relu"
   ],
   "note": ""
  },
  {
   "property": "C105",
   "status": "proved",
   "theorems": [
    "C105_more_bits",
    "C105_any_accuracy",
    "C105_monotone",
    "C105_sat_is_nearest",
    "C105_wider_type",
    "C105_truncation_worse"
   ],
   "note": ""
  },
  {
   "property": "C106",
   "status": "proved",
   "theorems": [
    "C106_detects_overflow",
    "C106_detects_overflow_aggressive",
    "C106_hidden_overflow",
    "C106_aggressive_relu"
   ],
   "note": "iff between equal tensors and no overflow for saturating proxies; for aggressive=True one direction in general, both without fused relu, counterexample with fused relu; counterexample for comparing only the outputs. Excluded as in C26: softmax, sigmoid and tanh layers with negative fractional bits."
  },
  {
   "property": "C107",
   "status": "proved",
   "theorems": [
    "C107_nearest_even",
    "C107_devices",
    "C107_devices_differ",
    "C107_quantizer",
    "C107_fixed_point",
    "C107_underflow",
    "C107_calibration",
    "C107_bit_accurate",
    "C107_in_range"
   ],
   "note": "C107_nearest_even pins the rounding of the model to the specification; C107_devices shows three different devices meeting the specification and C107_devices_differ that they differ below the normal range; C107_underflow is the counterexample outside the condition."
  },
  {
   "property": "C108",
   "status": "proved",
   "theorems": [
    "C108_error_bound",
    "C108_deployed",
    "C108_any_accuracy",
    "C108_tame",
    "C108_discontinuous"
   ],
   "note": "In exact arithmetic. C108_tame lists layers meeting the continuity condition, C108_discontinuous shows that it is needed."
  },
  {
   "property": "C109",
   "status": "proved",
   "theorems": [
    "C109_inference",
    "C109_training_is_inference",
    "C109_gap",
    "C109_stochastic"
   ],
   "note": "C109_stochastic shows that the exact statement needs deterministic strategies. Weights are fixed; dropout is not modelled, batch statistics are the subject of the batch normalisation properties."
  },
  {
   "property": "C110",
   "status": "partial",
   "theorems": [
    "C110_outputs_partial",
    "C110_ranges",
    "C110_fused_partial",
    "C110_fused_iff",
    "C110_fused_changes",
    "C110_fused_inference_changes"
   ],
   "note": "Proved for all layers without batch normalisation, and for fused layers with momentum 1 or with center and scale switched off. The code violates it for other fused layers: trainable is not looked at, and every training pass moves the stored statistics (C110_fused_iff gives exactly when a pass changes nothing, C110_fused_changes that zeros always do, C110_fused_inference_changes a change of the inference output)."
  },
  {
   "property": "C111",
   "status": "proved",
   "theorems": [
    "C111_quantizer",
    "C111_types",
    "C111_settles",
    "C111_fixed"
   ],
   "note": "Without the condition PLay.Fits of C89. C111_quantizer holds for every quantizer and every upstream type, so it replaces the conditional idempotence statements of C35."
  },
  {
   "property": "C112",
   "status": "partial",
   "theorems": [
    "C112_later_entries_partial",
    "C112_unshrunk_partial",
    "C112_first_entries_differ"
   ],
   "note": "The code violates it: a layer before a quantizer is registered with the format of the quantizer before that quantizer is shrunk, a second registration uses the shrunk one (C112_first_entries_differ: fixed<6,4,TRN,SAT>, then fixed<4,4,TRN,SAT>). Proved from the second registration on, for every history, and from the first one for models in which nothing is shrunk."
  },
  {
   "property": "C113",
   "status": "proved",
   "theorems": [
    "C113_deployed_after_training"
   ],
   "note": "C113_deployed_after_training, by induction over the history that layers stay sound and bitwidths clipped after a pass. Rational arithmetic; recorded ranges below 2^32 as in C26; clip ranges start at -32 or above (at 0 for softmax, sigmoid, tanh, see C63)."
  },
  {
   "property": "C114",
   "status": "partial",
   "theorems": [
    "C114_bias_added_late",
    "C114_layer_iff",
    "C114_deployed_is_batch_norm_partial",
    "C114_bias_fails",
    "C114_no_scale_fails"
   ],
   "note": "Proved for fused layers with scale and a bias that is absent or 0. The code violates it otherwise: the bias is added after the scaling although the moving mean contains it (C114_bias_fails), and without scale the mean is divided by sqrt(1+epsilon) while the values are not (C114_no_scale_fails). C114_layer_iff: a layer with scale and a bias is batch normalisation exactly if, channel by channel, the bias is 0 or the factor gamma/sqrt(var+eps) is 1. C114_bias_added_late: for any bias and any center and scale the deployed model approximates the network that adds the bias after normalising (without scale: subtracts mean*rsqrt(1+eps))."
  },
  {
   "property": "C115",
   "status": "partial",
   "theorems": [
    "C115_training_ranges_partial",
    "C115_beta_fails",
    "C115_statistics_fail",
    "C115_no_center_fails",
    "C115_dropout_fails"
   ],
   "note": "Proved for deterministic quantizers and no dropout when the moving statistics are those of the batch, bn_beta is 0, and a layer has a bias exactly if it has center (and then scale). The code violates it otherwise: training ignores bn_beta (C115_beta_fails), normalises with the batch (C115_statistics_fail) and drops the bias without center (C115_no_center_fails). Dropout in a training pass makes the ranges too small as well (C115_dropout_fails)."
  },
  {
   "property": "C116",
   "status": "proved",
   "theorems": [
    "C116_statistics",
    "C116_bounds"
   ],
   "note": "For any model, history and fused layer; values are exact rationals, and an empty batch (for which the code computes NaN) is excluded."
  },
  {
   "property": "C117",
   "status": "proved",
   "theorems": [
    "C117_variables"
   ],
   "note": "For models of Model/FusedNet.lean; the bitwidth adaption of fused layers in the first calls is C94."
  },
  {
   "property": "C118",
   "status": "proved",
   "theorems": [
    "C118_dropout"
   ],
   "note": "Keras' Dropout as documented (inverted dropout); the random numbers are inputs of the model."
  },
  {
   "property": "C119",
   "status": "partial",
   "theorems": [
    "C119_same_values",
    "C119_exact",
    "C119_train",
    "C119_iff",
    "C119_same_bops_partial",
    "C119_fails"
   ],
   "note": "The values agree (C119_same_values). The BOPs do not: post_build divides by prod(output_shape[1:-1]), which with channels first contains the filters and misses the last spatial dimension. C119_exact and C119_train give the factor (last dimension / number of filters), C119_iff says exactly when the two formats agree, C119_fails is a concrete layer."
  }
 ]
}
