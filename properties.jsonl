{"id": "C01", "title": "Proxy quantizer output is always a value of the declared ap_fixed type", "statement": "Whatever number is fed to gfixed_quantizer / FixedPointQuantizer, the result is one of the 2^bits values of ap_fixed<bits,integers> (keep_negative=1) or ap_ufixed<bits,integers> (keep_negative=0), for every rounding mode and every overflow mode; with bits=0 it is 0.", "quantifier": "every rational input, every keep_negative in {0,1}, every bits>=0 (bits>=1 is not required), every integer-bit count, all 7 rounding modes x 5 overflow modes", "why_tests_cant": "the input, width and integer-bit domains are unbounded and the five overflow formulas differ exactly at their range edges; sampling leaves edges and large widths open", "anchors": ["src/HGQ/proxy/fixed_point_quantizer.py:gfixed_quantizer", "src/HGQ/proxy/fixed_point_quantizer.py:SAT_MAP", "src/HGQ/proxy/fixed_point_quantizer.py:RND_MAP"]}
{"id": "C02", "title": "Representable values pass through unchanged, and quantizing twice equals quantizing once", "statement": "A value already in the declared type is returned unchanged by every rounding/overflow mode (the single exception is the most negative value under SAT_SYM, which is moved up by one step), and applying the quantizer twice gives the same result as applying it once.", "quantifier": "every value of every format, all rounding and overflow modes", "why_tests_cant": "needs every value of every width; tests use a handful of widths", "anchors": ["src/HGQ/proxy/fixed_point_quantizer.py:gfixed_quantizer", "src/HGQ/proxy/fixed_point_quantizer.py:SAT_SYM"]}
{"id": "C03", "title": "WRAP keeps exactly the low `bits` bits in two's complement", "statement": "With SAT='WRAP' the result is the two's-complement (or unsigned) reading of the low `bits` bits of the rounded, scaled input, i.e. the ap_fixed AP_WRAP behaviour, for arbitrarily large overflow in both directions.", "quantifier": "every input, width, integer-bit count and rounding mode", "why_tests_cant": "overflow distance is unbounded; the float floormod formula must agree with bit truncation at every multiple of the period", "anchors": ["src/HGQ/proxy/fixed_point_quantizer.py:WRAP", "src/HGQ/proxy/fixed_point_quantizer.py:gfixed_quantizer"]}
{"id": "C04", "title": "SAT and SAT_SYM clamp to the nearest representable bound and are monotone", "statement": "With SAT='SAT' an out-of-range value becomes the nearest end of the type's range, with 'SAT_SYM' the negative end is minus the positive end; the whole quantizer is monotone in its input for every rounding mode.", "quantifier": "every pair of inputs x<=y, every format, every rounding mode", "why_tests_cant": "monotonicity quantifies over pairs of reals and over all formats", "anchors": ["src/HGQ/proxy/fixed_point_quantizer.py:SAT", "src/HGQ/proxy/fixed_point_quantizer.py:SAT_SYM"]}
{"id": "C05", "title": "SAT_ZERO zeroes exactly the overflowing values", "statement": "With SAT='SAT_ZERO' the result is the rounded value when that lies in the type's range and 0 otherwise.", "quantifier": "every input, format and rounding mode", "why_tests_cant": "the range test must be right on both closed ends for every width", "anchors": ["src/HGQ/proxy/fixed_point_quantizer.py:SAT_ZERO"]}
{"id": "C06", "title": "WRAP_SM reflects: identity in range, step at most one LSB, period 2^(bits+1)", "statement": "With SAT='WRAP_SM' values in range are unchanged, consecutive grid inputs give outputs at most one grid step apart (no jump from maximum to minimum), and the output is periodic in the input with period 2^(bits+1) steps.", "quantifier": "every integer grid input, every format", "why_tests_cant": "reflection behaviour must hold at every fold of an unbounded input line", "anchors": ["src/HGQ/proxy/fixed_point_quantizer.py:WRAP_SM"]}
{"id": "C07", "title": "The seven rounding modes meet their documented tie rules", "statement": "TRN rounds toward minus infinity, TRN_ZERO toward zero; RND, RND_ZERO, RND_MIN_INF, RND_INF and RND_CONV return a nearest integer, and on exact ties go up, toward zero, down, away from zero and to even respectively.", "quantifier": "every rational input", "why_tests_cant": "the input is unbounded and ties are measure-zero events random tests never hit", "anchors": ["src/HGQ/proxy/fixed_point_quantizer.py:TRN", "src/HGQ/proxy/fixed_point_quantizer.py:RND", "src/HGQ/proxy/fixed_point_quantizer.py:RND_CONV", "src/HGQ/proxy/fixed_point_quantizer.py:TRN_ZERO", "src/HGQ/proxy/fixed_point_quantizer.py:RND_ZERO", "src/HGQ/proxy/fixed_point_quantizer.py:RND_MIN_INF", "src/HGQ/proxy/fixed_point_quantizer.py:RND_INF"]}
{"id": "C08", "title": "aggressive=True and aggressive=False differ only on overflow", "statement": "For an input whose rounded value fits the type, the WRAP and SAT (and SAT_ZERO, WRAP_SM) quantizers return the same value, and the error is below one LSB for TRN and at most half an LSB for the nearest modes.", "quantifier": "every input in range of every format, every rounding mode", "why_tests_cant": "covers all formats and inputs at once", "anchors": ["src/HGQ/proxy/fixed_point_quantizer.py:gfixed_quantizer", "src/HGQ/proxy/convert.py:to_proxy_model"]}
{"id": "C09", "title": "result_t_kif of a heterogeneous quantizer contains every element's type", "statement": "For a FixedPointQuantizer with per-element widths, the single type reported by result_t_kif can represent every output element, and `heterogeneous` is False exactly when all elements share one (keep_negative, bits, integers).", "quantifier": "every non-empty array of per-element formats and every input tensor", "why_tests_cant": "array length and formats are unbounded", "anchors": ["src/HGQ/proxy/fixed_point_quantizer.py:FixedPointQuantizer.result_t_kif", "src/HGQ/proxy/fixed_point_quantizer.py:FixedPointQuantizer.heterogeneous", "src/HGQ/proxy/fixed_point_quantizer.py:FixedPointQuantizer.fusible"]}
{"id": "C10", "title": "HGQ inference output lies on the grid of its rounded bitwidth, with bounded error, and is idempotent", "statement": "Calling an HGQ quantizer with training falsy returns, per element, an integer multiple of 2^-round(fbw); it is the nearest one (ties up) unless rnd_strategy is 'floor', in which case it is the largest not exceeding the input; and re-quantizing the result changes nothing.", "quantifier": "every input, every (real, here rational) fbw, every rnd_strategy", "why_tests_cant": "fbw is a trained real number; ties and half-integer fbw are not sampled", "anchors": ["src/HGQ/quantizer/quantizer.py:HGQ.forward", "src/HGQ/quantizer/quantizer.py:q_round"]}
{"id": "C11", "title": "Stochastic and noise strategies never leak into inference", "statement": "Any rnd_strategy other than floor (including stochastic_round, noise injection and unrecognised names) behaves as standard_round at inference time, independent of the random numbers drawn, while an unrecognised strategy is rejected (ValueError) in training.", "quantifier": "every strategy code, every noise value, every input", "why_tests_cant": "noise values are an unbounded input the test cannot control", "anchors": ["src/HGQ/quantizer/quantizer.py:HGQ.forward", "src/HGQ/quantizer/quantizer.py:q_round", "src/HGQ/utils/utils.py:strategy_dict"]}
{"id": "C12", "title": "Training forward value equals inference value for deterministic strategies", "statement": "With exact_q_value=True and rnd_strategy standard_round or floor, the number returned in training mode equals the number returned in inference mode: the straight-through terms cancel.", "quantifier": "every input and every fbw", "why_tests_cant": "algebraic identity over all inputs", "anchors": ["src/HGQ/quantizer/quantizer.py:HGQ.forward", "src/HGQ/quantizer/quantizer.py:HGQ.bias_forward"]}
{"id": "C13", "title": "Straight-through gradients: 1 for the input, -(error)*ln2 for the bitwidth", "statement": "The derivative of the training output with respect to the input is exactly 1 and with respect to fbw is -(xq-x)*ln2; scale_grad leaves the value unchanged and multiplies the gradient by its factor; get_bits passes the gradient of fbw through rounding.", "quantifier": "every input, fbw, strategy and noise value", "why_tests_cant": "gradients are only checked for being non-zero in the test-suite", "anchors": ["src/HGQ/quantizer/quantizer.py:HGQ.forward", "src/HGQ/layers/base.py:scale_grad", "src/HGQ/quantizer/quantizer.py:HGQ.get_bits"]}
{"id": "C14", "title": "Stochastic rounding is unbiased and picks an adjacent grid point", "statement": "In training with stochastic_round the scaled value is replaced by its floor or floor+1, and it rounds up exactly for the uniform noise values below the fractional part, so that the probability of rounding up equals the fractional part.", "quantifier": "every scaled input and every noise value in [0,1)", "why_tests_cant": "a statement about all noise values", "anchors": ["src/HGQ/quantizer/quantizer.py:q_round"]}
{"id": "C15", "title": "Bitwidths stay inside bw_clip after every call", "statement": "After any sequence of calls, gradient updates and bitwidth adaptations that ends in a call, every element of fbw lies in [bw_clip[0], bw_clip[1]], and the values used by that call are the clipped ones.", "quantifier": "every history of calls and arbitrary fbw updates", "why_tests_cant": "histories are unbounded", "anchors": ["src/HGQ/quantizer/quantizer.py:HGQ.__call__", "src/HGQ/quantizer/quantizer.py:HGQ.adapt_bw_bits"]}
{"id": "C16", "title": "Min/max record equals the true extrema since the last reset, however the data is batched", "statement": "After reset and any sequence of recording calls, the recorded min and max of each quantizer element are exactly the minimum and maximum of all quantized values mapped to that element since the reset; splitting or re-ordering batches does not change them.", "quantifier": "every sequence of resets and batches, every batch size, every grouping of positions to quantizer elements", "why_tests_cant": "histories and batch splits are unbounded", "anchors": ["src/HGQ/quantizer/quantizer.py:HGQ.forward", "src/HGQ/quantizer/quantizer.py:HGQ.minmax_reg_reset", "src/HGQ/bops/bops.py:trace_minmax"]}
{"id": "C17", "title": "get_bits_exact yields a type that contains everything recorded", "statement": "If min<=max were recorded, the (k,i,f) returned by get_bits_exact() describes a fixed-point type containing every value on the quantizer's grid between the recorded min and max (as long as 32 integer bits suffice); with pos_only it contains every such value clipped at zero.", "quantifier": "every min, max, fbw, and every grid value between them", "why_tests_cant": "all real ranges and widths, including powers of two where log2 edges matter", "anchors": ["src/HGQ/quantizer/quantizer.py:HGQ.get_bits_exact"]}
{"id": "C18", "title": "get_bits_exact is minimal", "statement": "When min and max are themselves on the grid, no type with the same fractional bits and one integer bit fewer, or without the sign, contains the recorded range.", "quantifier": "every grid-aligned recorded range", "why_tests_cant": "minimality is a universally quantified lower bound", "anchors": ["src/HGQ/quantizer/quantizer.py:HGQ.get_bits_exact"]}
{"id": "C19", "title": "Conversion without tracing is refused", "statement": "If any element of a quantizer has no recorded value (min is +inf / max is -inf, as after a reset), get_bits_exact raises instead of producing a type.", "quantifier": "every quantizer state with an unrecorded element", "why_tests_cant": "state space is unbounded", "anchors": ["src/HGQ/quantizer/quantizer.py:HGQ.get_bits_exact"]}
{"id": "C20", "title": "HQuantize and its proxy agree on every input whose result was in the recorded range", "statement": "For every input whose HGQ-quantized value lies in the recorded [min,max] of its element, the FixedPointQuantizer produced by to_proxy_model returns the same value, for both aggressive settings and both rounding strategies.", "quantifier": "every input, every recorded range, every fbw, both overflow modes", "why_tests_cant": "needs all inputs and ranges at once; tests check one random dataset", "anchors": ["src/HGQ/proxy/convert.py:ProxyLayerXFormer", "src/HGQ/quantizer/quantizer.py:HGQ.get_bits_exact", "src/HGQ/proxy/fixed_point_quantizer.py:gfixed_quantizer"]}
{"id": "C21", "title": "Rounding can be absorbed by the bias", "statement": "When can_bias_cover_rnd holds, the proxy's layer with bias raised by half an LSB followed by a truncating quantizer gives exactly what the HGQ layer's round-to-nearest gives.", "quantifier": "every pre-activation value, every bias and every fbw", "why_tests_cant": "identity over all reals", "anchors": ["src/HGQ/layers/base.py:HLayerBase.fused_qbias", "src/HGQ/layers/base.py:HLayerBase.can_bias_cover_rnd", "src/HGQ/proxy/convert.py:ProxyLayerXFormer.get_kbiRS"]}
{"id": "C22", "title": "can_bias_cover_rnd is only True if each output channel has a single bitwidth", "statement": "Whenever can_bias_cover_rnd returns True, all activation-quantizer elements belonging to one bias channel share one bitwidth, so a per-channel half-LSB is well defined.", "quantifier": "every quantizer shape, bias shape and channel location", "why_tests_cant": "shapes are unbounded", "anchors": ["src/HGQ/layers/base.py:HLayerBase.can_bias_cover_rnd"]}
{"id": "C23", "title": "Pruned channels: zeroing the bias is invisible", "statement": "fused_qbias replaces the bias by 0 exactly in channels whose recorded pre-activations are all zero (all non-positive for relu layers); the proxy output of such channels is 0 regardless of the input, as is the HGQ output on in-range inputs.", "quantifier": "every recorded state and input", "why_tests_cant": "depends on agreement of the approximate and exact bit counts at 0 for all states", "anchors": ["src/HGQ/layers/base.py:HLayerBase.fused_qbias", "src/HGQ/layers/base.py:HLayerBase.act_bw"]}
{"id": "C24", "title": "A linear HGQ layer (dense/conv) without relu equals its proxy on in-range inputs", "statement": "HDense and HConv (channels_last, or channels_first with a single activation bitwidth) without relu, called at least once so that bitwidths are inside bw_clip: for every input whose quantized outputs lie in the recorded ranges, klayer + FixedPointQuantizer returns exactly the HGQ layer's output, for every kernel, bias, bitwidth assignment and both overflow modes.", "quantifier": "every kernel, bias, per-element bitwidths, connectivity (dense or any convolution), every input in range", "why_tests_cant": "all weights/bitwidths/inputs", "anchors": ["src/HGQ/layers/dense.py:HDense.jit_forward", "src/HGQ/layers/conv.py:HConv.jit_forward", "src/HGQ/proxy/convert.py:ProxyLayerXFormer.__call__", "src/HGQ/proxy/convert.py:copy_fused_weights"]}
{"id": "C25", "title": "A relu HGQ layer equals its two-quantizer proxy on in-range inputs", "statement": "HDense/HConv with activation='relu' (same scope as C24): klayer + first quantizer + ReLU + second quantizer returns exactly the HGQ layer's output for every input whose pre-activations lie in the recorded ranges.", "quantifier": "every kernel, bias, bitwidths and in-range input, both overflow modes", "why_tests_cant": "the first quantizer is a homogeneous over-approximation whose wrap-around is only wrong for rare values", "anchors": ["src/HGQ/proxy/convert.py:ProxyLayerXFormer.__call__", "src/HGQ/layers/dense.py:HDense.jit_forward"]}
{"id": "C26", "title": "Whole-model bit accuracy on the calibration data", "statement": "After trace_minmax(model, data, cover_factor=1) and to_proxy_model(model), the proxy returns exactly the model's output on every sample of data, for any feed-forward graph of HGQ layers (bitwidths inside bw_clip, non-negative fractional bits on softmax/sigmoid/tanh) and passive layers; more generally on every input whose intermediate quantized values stay in the recorded ranges.", "quantifier": "every model graph, every weight and bitwidth assignment, every dataset and batch size", "why_tests_cant": "quantifies over all models and datasets; the test-suite has a dozen small models", "anchors": ["src/HGQ/proxy/convert.py:to_proxy_model", "src/HGQ/bops/bops.py:trace_minmax", "src/HGQ/layers/base.py:HLayerBase.call"]}
{"id": "C27", "title": "HActivation and HAdd equal their proxies on in-range inputs", "statement": "HActivation(phi) is phi followed by the quantizer in both the model and the proxy, and HAdd is the sum followed by the quantizer; outputs agree for all in-range inputs and any unary function.", "quantifier": "every function phi, number of summands and input", "why_tests_cant": "arbitrary functions", "anchors": ["src/HGQ/layers/misc.py:HActivation", "src/HGQ/layers/misc.py:HAdd", "src/HGQ/proxy/convert.py:ProxyLayerXFormer.__call__"]}
{"id": "C28", "title": "Fused batch-norm: training and inference agree when the statistics agree", "statement": "For HDenseBatchNorm/HConvBatchNorm, if the moving mean/variance equal the batch mean/variance then the fused kernel and bias used at inference equal those used in training.", "quantifier": "every kernel, bias, gamma, beta, statistics, and both settings of center/scale", "why_tests_cant": "an identity over all parameter values", "anchors": ["src/HGQ/layers/batchnorm_base.py:HBatchNormBase.fused_kernel", "src/HGQ/layers/batchnorm_base.py:HBatchNormBase.fused_bias", "src/HGQ/layers/dense.py:HDenseBatchNorm.bn_train_jit_forward", "src/HGQ/layers/conv.py:HConvBatchNorm.bn_train_jit_forward"]}
{"id": "C29", "title": "HBatchNormalization computes batch normalisation", "statement": "Up to quantization, HBatchNormalization maps x to gamma*(x-mean)/sqrt(var+eps)+beta.", "quantifier": "every x, mean, var, gamma, beta, eps", "why_tests_cant": "an identity over all parameter values", "anchors": ["src/HGQ/layers/batchnorm_base.py:HBatchNormalization.forward"]}
{"id": "C30", "title": "get_arr_container returns a sound and minimal type for an array", "statement": "For every array whose entries are multiples of 2^-31 and below the int64 range, the returned (k,i,f) type contains every entry; k=1 iff some entry is negative; f is the least fractional-bit count in [-31,31] that represents all entries exactly; i is the least integer-bit count. All-zero arrays give (0,1,0).", "quantifier": "every finite array of dyadic rationals in range", "why_tests_cant": "binary search and log2 edges over unbounded data", "anchors": ["src/HGQ/proxy/precision_derivation.py:get_arr_container"]}
{"id": "C31", "title": "get_arr_bits reports the true highest/lowest set bits", "statement": "For every fixed-point array within 32 fractional bits, get_arr_bits returns for each entry the sign, integer and fractional bit positions such that the entry is a multiple of 2^-f, below 2^i in magnitude, and int+frac bits is the span from its highest to its lowest set bit (0 for zero).", "quantifier": "every array", "why_tests_cant": "divisor count depends on the array maximum; float32 absorption of +1 only shows for large values", "anchors": ["src/HGQ/quantizer/quantizer.py:get_arr_bits"]}
{"id": "C32", "title": "Training-time bit counts never underestimate the exact ones", "statement": "kernel_bw (per weight) and act_bw (per activation) as used in the training BOPs are at least the post-training exact counts kernel_bw_exact and act_bw_exact for the same state.", "quantifier": "every weight, range and bitwidth", "why_tests_cant": "quantifies over all weights and ranges", "anchors": ["src/HGQ/layers/base.py:HLayerBase.kernel_bw", "src/HGQ/layers/base.py:HLayerBase.kernel_bw_exact", "src/HGQ/layers/base.py:HLayerBase.act_bw", "src/HGQ/layers/base.py:HLayerBase.act_bw_exact"]}
{"id": "C33", "title": "activation_kif_forward covers every reachable activation value", "statement": "For an input type with at most 20 total bits and a function whose values are representable with at most 31 fractional bits, the returned type contains phi(x) for every value x of the input type.", "quantifier": "every function and every input type up to the sampling limit", "why_tests_cant": "the function is arbitrary", "anchors": ["src/HGQ/proxy/precision_derivation.py:activation_kif_forward"]}
{"id": "C34", "title": "Derived output types of passive and arithmetic layers contain every output", "statement": "If the inputs of Add, Subtract, AveragePooling, Concatenate, Reshape/Flatten/MaxPool, Dot, Dense or Conv are values of their derived types, every output is a value of the derived output type.", "quantifier": "every input, fan-in, pool size, kernel", "why_tests_cant": "worst-case values are corner cases of unbounded domains", "anchors": ["src/HGQ/proxy/precision_derivation.py:get_produced_kif"]}
{"id": "C35", "title": "Deriving the produced type of a quantizer does not change what it computes", "statement": "Querying get_produced_kif on a FixedPointQuantizer may shrink its stored widths, but for every input allowed by the upstream type its output is unchanged and lies in the returned type.", "quantifier": "every upstream type, every quantizer format and mode, every upstream value", "why_tests_cant": "the mutation only matters for extreme combinations", "anchors": ["src/HGQ/proxy/precision_derivation.py:get_produced_kif", "src/HGQ/proxy/fixed_point_quantizer.py:FixedPointQuantizer.result_t_kif"]}
{"id": "C36", "title": "Casting a data path to the merged precision is invisible downstream", "statement": "Casting a value of the available type to merge_precision(available, requested) with TRN/WRAP does not change the output of any downstream quantizer that made the request and rounds with TRN or RND (the only modes to_proxy_model creates), directly or behind Concatenate/Reshape/Flatten, unless the quantizer is signed, wraps, and has fewer integer bits than an unsigned value in front of it (or wraps sign-magnitude values that overflow).", "quantifier": "every available type, every set of downstream layers, every element format, every overflow mode, and every value of the available type", "why_tests_cant": "unbounded formats and values; errors need overflow or sticky-bit corner cases", "anchors": ["src/HGQ/proxy/precision_derivation.py:merge_precision", "src/HGQ/proxy/precision_derivation.py:get_request_kif", "src/HGQ/proxy/precision_derivation.py:get_result_kifRS"]}
{"id": "C37", "title": "Input-layer type derived from the following quantizers loses nothing they need", "statement": "Casting the input to the type derived from the quantizers that follow it (TRN and their common overflow mode SAT or WRAP, rounding TRN or RND) does not change any of those quantizers' outputs.", "quantifier": "every input value and every set of following quantizers", "why_tests_cant": "unbounded", "anchors": ["src/HGQ/proxy/precision_derivation.py:derive_result_kifRS_from_next_quantizers"]}
{"id": "C38", "title": "Accumulating modulo the result width is exact", "statement": "With WRAP, computing every product, the bias (a multiple of the accumulator's resolution) and every partial sum in accum_t (integer bits of the result, fractional bits of the product) and casting to result_t gives the same as computing exactly and casting once, in any summation order. With a saturating result and no bias, no partial sum overflows accum_t under the conditions of C34.", "quantifier": "every number of terms, every values, every order", "why_tests_cant": "order and length unbounded", "anchors": ["src/HGQ/proxy/precision_derivation.py:get_config_wight_accum_result_bias"]}
{"id": "C39", "title": "Types wider than 64 bits are refused", "statement": "get_config raises ValueError exactly when a derived type has more than 64 integer+fractional bits, in particular whenever an unquantized input reaches a layer with a kernel (and accum_fp_max_offset is not set), and otherwise returns the derived types.", "quantifier": "every derived configuration", "why_tests_cant": "unbounded", "anchors": ["src/HGQ/proxy/precision_derivation.py:get_config"]}
{"id": "C40", "title": "fixed<> strings round-trip", "statement": "apf_to_tuple(tuple_to_apf((k,i,f), rnd, sat)) == (k,i,f) for every k in {0,1} with k+i+f>=1, for every rounding/overflow mode name; otherwise the width is padded to one bit.", "quantifier": "all integers i, f and all mode names", "why_tests_cant": "infinite integer domain through a regular expression", "anchors": ["src/HGQ/utils/utils.py:apf_to_tuple", "src/HGQ/utils/utils.py:tuple_to_apf"]}
{"id": "C41", "title": "UnaryLUT equals activation-then-quantize on every input of its type", "statement": "UnaryLUT.from_activation(phi, kif_in, kifRS_out) returns, for every value x of the input type (positive or negative), exactly the quantization of phi(x) to the output type.", "quantifier": "every function, every input type, every value", "why_tests_cant": "function is arbitrary; index wrap-around for negative inputs", "anchors": ["src/HGQ/proxy/unary_lut.py:UnaryLUT.from_activation", "src/HGQ/proxy/unary_lut.py:UnaryLUT.call", "src/HGQ/proxy/unary_lut.py:UnaryLUT.__init__"]}
{"id": "C42", "title": "Activation becomes a LUT exactly when the table fits, without crashing", "statement": "to_proxy_model(unary_lut_max_table_size=T) replaces a non-relu, non-linear, non-softmax activation by a UnaryLUT when 2^(input bits) <= T and leaves it unchanged otherwise.", "quantifier": "every input type and T", "why_tests_cant": "threshold interactions of three limits", "anchors": ["src/HGQ/proxy/unary_lut.py:xfr_to_unary_lut", "src/HGQ/proxy/unary_lut.py:UnaryLUT.__init__", "src/HGQ/proxy/unary_lut.py:UnaryLUT.from_activation"]}
{"id": "C43", "title": "convert_model computes the same function as the nested model", "statement": "Flattening a (possibly nested) functional model whose layers and nested models have one output each with a layer transformer that preserves each layer's function succeeds and yields a model computing the same outputs (the model itself may have several outputs); with the identity transformer it is a pure flattening. (Nested models with several outputs: C69.)", "quantifier": "every acyclic graph, nesting depth and layer functions", "why_tests_cant": "all graphs", "anchors": ["src/HGQ/proxy/convert.py:convert_model", "src/HGQ/proxy/convert.py:apply_layer", "src/HGQ/proxy/convert.py:_get_out_tensor", "src/HGQ/proxy/convert.py:solve_dependencies"]}
{"id": "C44", "title": "Each graph node is converted exactly once", "statement": "In convert_model a node reachable by several paths is applied once and its tensor shared; nodes that no output needs are not applied.", "quantifier": "every DAG with sharing", "why_tests_cant": "exponential path counts, unbounded graphs", "anchors": ["src/HGQ/proxy/convert.py:_get_out_tensor"]}
{"id": "C45", "title": "Converted layer names are unique", "statement": "Whatever names the layers carry (including names that look like generated ones), the names assigned during a conversion are pairwise different, a name that has not been assigned before is kept, another one gets a suffix, and name generation terminates.", "quantifier": "every sequence of names", "why_tests_cant": "adversarial names such as a, a, a_0", "anchors": ["src/HGQ/proxy/convert.py:Namer.next_name"]}
{"id": "C46", "title": "Layer transformation reaches a fixed point", "statement": "Starting from any HGQ, passive or plain layer, repeated application of the proxy transformer ends after finitely many steps in layers it maps to themselves or drops, and never trips the 1024-iteration guard.", "quantifier": "every layer kind", "why_tests_cant": "termination", "anchors": ["src/HGQ/proxy/convert.py:apply_layer", "src/HGQ/proxy/convert.py:ProxyLayerXFormer.__call__"]}
{"id": "C47", "title": "After trace_minmax returns, plain inference does not change the recorded ranges", "statement": "Once trace_minmax has returned, model(x, training=False) leaves all recorded min/max (and hence the types the conversion will choose) untouched.", "quantifier": "every model, dataset, flag combination and subsequent inference", "why_tests_cant": "histories", "anchors": ["src/HGQ/bops/bops.py:trace_minmax", "src/HGQ/layers/base.py:HLayerBase.call"]}
{"id": "C48", "title": "trace_minmax(rst=False) extends the ranges", "statement": "Calling trace_minmax a second time with rst=False on more data gives the ranges of both datasets together.", "quantifier": "every pair of datasets", "why_tests_cant": "histories", "anchors": ["src/HGQ/bops/bops.py:trace_minmax"]}
{"id": "C49", "title": "trace_minmax and reset_minmax reach nested models", "statement": "Quantizers inside nested models are reset and recorded like top-level ones.", "quantifier": "every nesting structure", "why_tests_cant": "unbounded nesting", "anchors": ["src/HGQ/bops/bops.py:trace_minmax", "src/HGQ/bops/bops.py:ResetMinMax", "src/HGQ/bops/bops.py:FreeBOPs"]}
{"id": "C50", "title": "cover_factor>=1 never narrows, and <1 never widens, the recorded range", "statement": "trace_minmax with cover_factor c rescales each range about its centre and re-quantizes: for c>=1 the new range contains the old one, for 0<c<=1 it is contained in it; c=1 changes nothing.", "quantifier": "every range, bitwidth and factor", "why_tests_cant": "all reals", "anchors": ["src/HGQ/bops/bops.py:trace_minmax"]}
{"id": "C51", "title": "Exact BOPs are non-negative, zero for pruned weights, and monotone", "statement": "compute_exact_bops of dense/conv layers is the sum of input-bits x weight-bits over all multiplications (scaled by the parallel factor for conv), is never negative, counts nothing for zero weights or dead inputs, and does not decrease when a weight or input gets more bits; trace_minmax returns the sum over layers.", "quantifier": "every layer shape, kernel and input bits", "why_tests_cant": "all kernels and shapes", "anchors": ["src/HGQ/layers/dense.py:HDense.compute_exact_bops", "src/HGQ/layers/conv.py:HConv.compute_exact_bops", "src/HGQ/bops/bops.py:trace_minmax"]}
{"id": "C52", "title": "trace_minmax(return_predictions=True) returns predictions in dataset order, independent of bsz", "statement": "For a model with one output, the concatenated predictions equal model(dataset) row for row, for every batch size >= 1 (an empty dataset raises).", "quantifier": "every dataset length and batch size", "why_tests_cant": "all lengths, including non-multiples", "anchors": ["src/HGQ/bops/bops.py:trace_minmax"]}
{"id": "C53", "title": "Default quantizer configs are isolated", "statement": "Mutating a dict obtained from get_default_*_conf never changes the defaults, and after set_default_*_conf(c) later layers use c's content as of the call.", "quantifier": "every history of get/set/mutate operations", "why_tests_cant": "aliasing histories", "anchors": ["src/HGQ/utils/utils.py:get_default_kq_conf", "src/HGQ/utils/utils.py:set_default_kq_conf", "src/HGQ/utils/utils.py:set_default_paq_conf"]}
{"id": "C54", "title": "A layer's rounding strategy does not depend on which other layers were built before it", "statement": "With rnd_strategy='auto', the rounding chosen for a layer depends only on that layer and its own configuration, even if several layers were given the same paq_conf dict.", "quantifier": "every set of layers, config sharing pattern and build order", "why_tests_cant": "build orders and aliasing patterns", "anchors": ["src/HGQ/layers/misc.py:HActivation.post_build", "src/HGQ/layers/base.py:HLayerBase.post_build"]}
{"id": "C55", "title": "Bitwidth shape and degeneracy account for every value", "statement": "For every input shape with known dimensions and every skip_dims (tuple or named mode), number of bitwidth elements times degeneracy equals the number of values.", "quantifier": "every shape and skip_dims", "why_tests_cant": "unbounded ranks/dims", "anchors": ["src/HGQ/quantizer/quantizer.py:HGQ._compute_bw_shape_and_degeneracy"]}
{"id": "C56", "title": "Min/max recording works for every documented skip_dims", "statement": "For every skip_dims setting the recorder's per-element update is well-shaped (the reduced tensor can be assigned to the record).", "quantifier": "every shape and skip_dims", "why_tests_cant": "unbounded shapes; only two settings are tested", "anchors": ["src/HGQ/quantizer/quantizer.py:HGQ.forward", "src/HGQ/quantizer/quantizer.py:HGQ._compute_bw_shape_and_degeneracy"]}
{"id": "C57", "title": "Float32 evaluation of the quantizers equals exact arithmetic within the mantissa", "statement": "In IEEE float32 (round-to-nearest-even), scaling, adding one half, flooring, and the straight-through x+(xq-x) give exactly the mathematical result whenever the scaled value is below 2^22 in magnitude.", "quantifier": "every float32 input and integer bitwidth", "why_tests_cant": "2^32 inputs per bitwidth; the failing inputs are isolated points", "anchors": ["src/HGQ/quantizer/quantizer.py:HGQ.forward", "src/HGQ/quantizer/quantizer.py:q_round", "src/HGQ/proxy/fixed_point_quantizer.py:gfixed_quantizer"]}
{"id": "C58", "title": "Float32 matrix products of quantized data are exact in any order", "statement": "If inputs and weights are on power-of-two grids and all partial sums stay below 2^24 units of the product grid, float32 accumulation in any order equals the exact sum.", "quantifier": "every length, order and grid", "why_tests_cant": "orders are unbounded and chosen by the runtime", "anchors": ["src/HGQ/layers/dense.py:HDense.jit_forward", "src/HGQ/layers/conv.py:HConv.convolution_op"]}
{"id": "C59", "title": "adapt_bw_bits gives every weight the same number of bits (within one)", "statement": "After adapt_bw_bits from a uniform initial integer bitwidth n >= 1, every weight w is represented with n or n+1 magnitude bits, whatever its scale, as long as the adapted bitwidth is inside the quantizer's clip range (2^(n-23) <= |w| <= 2^(n+23) by default); of weights sharing a bitwidth the largest gets n or n+1 bits and no other more than n+1. A weight below the clip range is quantized to zero.", "quantifier": "every weight, group of weights, initial width >= 1, clip range and rounding strategy", "why_tests_cant": "all reals", "anchors": ["src/HGQ/quantizer/quantizer.py:HGQ.adapt_bw_bits"]}
{"id": "C60", "title": "QKeras quantizers map to equivalent fixed-point layers", "statement": "A QKeras layer is converted to a proxy that computes the same function: the operation on the quantized weights, followed by layers whose value set, rounding and saturation are those of its quantizer (quantized_bits, quantized_relu, binary); settings that cannot be represented are refused, and only the entries of its configuration that concern quantization are dropped.", "quantifier": "every bits/integer/keep_negative/symmetric/alpha setting, overflow mode, configuration and input", "why_tests_cant": "all widths and inputs", "anchors": ["src/HGQ/proxy/plugins/qkeras.py:qkeras_quantizer_to_layers"]}
{"id": "C61", "title": "channels_first convolutions are deployed exactly", "statement": "C24 also holds for HConv with data_format='channels_first' and one activation bitwidth per channel.", "quantifier": "every channels_first convolution, kernel, bias, bitwidths and in-range input", "why_tests_cant": "only some bitwidth patterns show the mismatch; the test-suite has no channels_first model", "anchors": ["src/HGQ/layers/conv.py:HConv.jit_forward", "src/HGQ/quantizer/quantizer.py:HGQ.bias_forward", "src/HGQ/layers/base.py:HLayerBase.fused_qbias"]}
{"id": "C62", "title": "The first call after bitwidths leave the clip range agrees with later calls", "statement": "Calling a layer twice at inference on the same input gives the same output, whatever the stored bitwidths (e.g. after a large optimizer step outside bw_clip).", "quantifier": "every layer, stored bitwidths, input", "why_tests_cant": "depends on the bitwidths reached by training", "anchors": ["src/HGQ/layers/dense.py:HDense.jit_forward", "src/HGQ/quantizer/quantizer.py:HGQ.bias_forward", "src/HGQ/quantizer/quantizer.py:HGQ.call"]}
{"id": "C63", "title": "A traced tanh layer can always be deployed", "statement": "After trace_minmax on non-empty data, to_proxy_model never raises on softmax/sigmoid/tanh layers whatever their fractional bits.", "quantifier": "every bitwidth (including negative fractional bits), dataset", "why_tests_cant": "needs negative fractional bits together with one-sided data", "anchors": ["src/HGQ/bops/bops.py:trace_minmax", "src/HGQ/quantizer/quantizer.py:HGQ.get_bits_exact"]}
{"id": "C64", "title": "A fused batch-norm layer equals the plain layer followed by batch normalisation", "statement": "At inference, up to quantization, HDenseBatchNorm/HConvBatchNorm compute gamma*(x.k+b-moving_mean)/sqrt(moving_variance+eps)+beta on every channel.", "quantifier": "every kernel, bias, gamma, beta, moving statistics, eps, input and position", "why_tests_cant": "an identity over all parameter values", "anchors": ["src/HGQ/layers/batchnorm_base.py:HBatchNormBase.fused_kernel", "src/HGQ/layers/batchnorm_base.py:HBatchNormBase.fused_bias", "src/HGQ/layers/dense.py:HDenseBatchNorm", "src/HGQ/layers/conv.py:HConvBatchNorm"]}
{"id": "C65", "title": "Layers use and deploy quantized weights", "statement": "The kernel a layer multiplies with, in HGQ and in the proxy, is the trained kernel rounded to the layer's kernel bitwidths (next lower multiple for floor, nearest otherwise); the deployed bias is the trained bias quantized with the largest bitwidth of its channel, plus half of its last bit exactly if rounding is absorbed, or 0 for an inactive channel.", "quantifier": "every layer, kernel, bias, bitwidths, strategy and input", "why_tests_cant": "tests compare HGQ with the proxy; a weight left unquantized in both goes unnoticed", "anchors": ["src/HGQ/layers/base.py:HLayerBase.fused_qkernel", "src/HGQ/layers/base.py:HLayerBase.fused_qbias", "src/HGQ/proxy/convert.py:copy_fused_weights"]}
{"id": "C66", "title": "Derived data-path types are safe for every rounding and overflow mode", "statement": "Storing a value with the merged type, or the model input with the type derived from the following quantizers, changes no downstream quantizer output, whatever its rounding and overflow mode.", "quantifier": "every rounding and overflow mode, type and value", "why_tests_cant": "sticky-bit and tie corner cases of unbounded domains", "anchors": ["src/HGQ/proxy/precision_derivation.py:get_request_kif", "src/HGQ/proxy/precision_derivation.py:merge_precision", "src/HGQ/proxy/precision_derivation.py:derive_result_kifRS_from_next_quantizers"]}
{"id": "C67", "title": "Fusing a quantizer into the preceding layer's result type is exact", "statement": "If a layer is followed by exactly one quantizer and that is homogeneous, storing the layer's output with the derived result type and modes equals applying the quantizer; otherwise nothing is fused.", "quantifier": "every downstream structure, format, mode and value", "why_tests_cant": "unbounded formats and values", "anchors": ["src/HGQ/proxy/precision_derivation.py:result_kifRS_layer_with_fusible_quantizer", "src/HGQ/proxy/fixed_point_quantizer.py:FixedPointQuantizer.fusible"]}
{"id": "C68", "title": "The declared bias type represents the deployed bias", "statement": "The bias type written to the layer configuration stores every deployed bias value exactly.", "quantifier": "every bias, kernel, input type and result type", "why_tests_cant": "depends on relations between widths that tests do not enumerate", "anchors": ["src/HGQ/proxy/precision_derivation.py:get_config_wight_accum_result_bias"]}
{"id": "C69", "title": "Nested models with several outputs are flattened correctly", "statement": "A model that uses one particular output of a nested model with several outputs is converted to a model that uses that output.", "quantifier": "every nested model and every choice of outputs", "why_tests_cant": "all graphs", "anchors": ["src/HGQ/proxy/convert.py:solve_dependencies", "src/HGQ/proxy/convert.py:_get_out_tensor"]}
{"id": "C70", "title": "Conversion leaves the source model alone", "statement": "convert_model and to_proxy_model do not change the names of the layers of the model they are given.", "quantifier": "every model and layer transformer", "why_tests_cant": "all graphs, shared layers, all transformers", "anchors": ["src/HGQ/proxy/convert.py:apply_layer"]}
{"id": "C71", "title": "The proxy of a nested model is bit-accurate", "statement": "For a nested functional model (any sharing, any nesting) of HQuantize, kernel, activation, add, signature, passive and plain layers, to_proxy_model succeeds, and on every input on which all quantized values stay in the recorded ranges (and signatures are respected) the flat proxy model returns exactly the model's outputs.", "quantifier": "every nested graph, weights, bitwidths, recorded ranges and inputs inside them", "why_tests_cant": "all graphs and inputs", "anchors": ["src/HGQ/proxy/convert.py:to_proxy_model", "src/HGQ/proxy/convert.py:ProxyLayerXFormer.__call__", "src/HGQ/proxy/convert.py:convert_model"]}
{"id": "C72", "title": "Lookup tables have one entry per representable input", "statement": "The table size written for an activation without a dedicated quantizer equals the number of values of its input type; for tanh (sigmoid) it equals the number of values of the input's precision in [-4,4) ([-8,8)).", "quantifier": "every input type and result type", "why_tests_cant": "all bitwidths", "anchors": ["src/HGQ/proxy/precision_derivation.py:get_config_table_tablesize_result"]}
{"id": "C73", "title": "Predictions of models with several outputs", "statement": "trace_minmax(return_predictions=True) on a model with several outputs returns, for each output, one row per sample in dataset order, whatever the batch size.", "quantifier": "every model with at least two outputs, dataset and batch size", "why_tests_cant": "all batch splits and shapes", "anchors": ["src/HGQ/bops/bops.py:trace_minmax"]}
{"id": "C74", "title": "HDense and HConv compute the standard operations on quantized weights", "statement": "On every batch, HDense outputs activation(Q(x\u00b7W + b)) and HConv1D/HConv2D (channels last) outputs activation(Q(conv(x, W) + b)), position by position, where W and b are the quantized kernel and bias, Q the layer's output quantizer and conv the usual zero-padded, strided, dilated, grouped cross-correlation; 'valid' padding never reads outside the input and produces as many outputs as fit, 'same' padding produces ceil(n/stride) outputs with the padding split evenly.", "quantifier": "every batch, shape, kernel, stride, dilation, padding and group count", "why_tests_cant": "unbounded shapes and hyper-parameters", "anchors": ["src/HGQ/layers/dense.py:HDense.jit_forward", "src/HGQ/layers/conv.py:HConv.convolution_op", "src/HGQ/layers/conv.py:HConv.jit_forward"]}
{"id": "C75", "title": "The bits reported for a tensor describe its values", "statement": "After tracing, the bits a layer reports for its output (act_bw_exact) are, position by position, the widths of fixed-point types that contain the value at this position for every input that stays in the recorded ranges, also after reshaping, flattening, concatenation, permutation and pooling.", "quantifier": "every graph, recorded range and input", "why_tests_cant": "all inputs and graphs", "anchors": ["src/HGQ/layers/base.py:HLayerBase.act_bw_exact", "src/HGQ/layers/passive_layers.py:PLayerBase.act_bw_exact", "src/HGQ/layers/passive_layers.py:PConcatenate.act_bw_exact", "src/HGQ/layers/passive_layers.py:PPool2D.act_bw_exact", "src/HGQ/layers/passive_layers.py:PPermute"]}
{"id": "C76", "title": "Training-time BOPs are an upper bound of the exact BOPs", "statement": "For the same weights and recorded ranges, the BOPs a dense or convolution layer reports during training (shown by FreeBOPs) are at least its exact BOPs.", "quantifier": "every layer shape, kernel, bitwidths and ranges", "why_tests_cant": "all kernels and ranges", "anchors": ["src/HGQ/layers/dense.py:HDense.forward", "src/HGQ/layers/conv.py:HConv.forward", "src/HGQ/layers/base.py:HLayerBase.act_bw"]}
{"id": "C77", "title": "Training-time kernel bits with shared bitwidths", "statement": "When weights of a kernel share bitwidths (skip_dims of the kernel quantizer), the kernel bits estimated during training are, for every weight, the largest number of binary digits among the quantized weights that share its bitwidth.", "quantifier": "every kernel shape, skip_dims, kernel and bitwidths", "why_tests_cant": "all shapes and kernels; the default shares nothing", "anchors": ["src/HGQ/quantizer/quantizer.py:HGQ.get_bits", "src/HGQ/layers/base.py:HLayerBase._kernel_bw"]}
{"id": "C78", "title": "Bit accuracy of layer and proxy in float32", "statement": "Evaluated in float32 as TensorFlow does, with every operation rounded and the products accumulated in any order (a different one in the HGQ layer and in the proxy), a dense or convolution layer and its proxy return exactly the same number, provided that the products, the bias and one unit of the output add up to less than 2^23 units of the common grid, the generated types have at most 22 bits and the value is inside the recorded range.", "quantifier": "every layer, kernel, bias, bitwidths, connectivity, activation (linear or relu), rounding strategy, overflow mode, input, output position and pair of accumulation orders", "why_tests_cant": "float32 rounding depends on the accumulation order chosen by the backend and on single inputs among 2^32", "anchors": ["src/HGQ/layers/dense.py:HDense.jit_forward", "src/HGQ/layers/base.py:HLayerBase.fused_qbias", "src/HGQ/proxy/convert.py:ProxyLayerXFormer", "src/HGQ/proxy/fixed_point_quantizer.py:gfixed_quantizer", "src/HGQ/quantizer/quantizer.py:HGQ.forward"]}
{"id": "C79", "title": "Saving and loading a model keeps every layer's settings", "statement": "A layer of the library (or a fixed-point quantizer or look-up table of a proxy) that is saved and loaded has the constructor settings, types and weights it had, so it computes the same function.", "quantifier": "every layer class, every combination of constructor arguments, and every change of the default quantizer configurations between saving and loading", "why_tests_cant": "the test suite saves a few configurations with default normalisation settings; the claim is about all of them", "anchors": ["src/HGQ/layers/base.py:HLayerBase.get_config", "src/HGQ/layers/dense.py:HDense.get_config", "src/HGQ/layers/conv.py:HConv.get_config", "src/HGQ/layers/batchnorm_base.py:HBatchNormBase", "src/HGQ/proxy/fixed_point_quantizer.py:FixedPointQuantizer.get_config", "src/HGQ/proxy/unary_lut.py:UnaryLUT.get_config"]}
{"id": "C80", "title": "A loaded model behaves as the saved one", "statement": "A loaded model returns the same outputs as the saved one on every input, and can be converted to a proxy if the saved one could.", "quantifier": "every network, every bitwidths and recorded ranges, every batch", "why_tests_cant": "all networks and histories of recording", "anchors": ["src/HGQ/quantizer/quantizer.py:HGQ.init_minmax", "src/HGQ/layers/base.py:HLayerBase.init_quantizers", "src/HGQ/proxy/convert.py:to_proxy_model"]}
{"id": "C81", "title": "Interrupting training by saving and loading does not change the kernel bitwidths", "statement": "Training, saving, loading and training on gives the same kernel bitwidths as training without interruption.", "quantifier": "every history of training steps, inference and save/load, every optimizer", "why_tests_cant": "histories", "anchors": ["src/HGQ/layers/base.py:HLayerBase.init_quantizers", "src/HGQ/layers/dense.py:HDenseBatchNorm.forward", "src/HGQ/layers/conv.py:HConvBatchNorm.forward"]}
{"id": "C82", "title": "The activation a layer was given is the one its proxy computes", "statement": "For every value of `activation` that HDense/HConv* accept, the layer applies that activation after its quantizer, and the proxy layer made from it returns the same number on every input whose pre-activation was in the recorded range. Everything other than relu and linear is refused when the layer is constructed.", "quantifier": "all values of the activation argument (None, every string, the Keras functions, every other callable with any name), all kernels, biases, bitwidths, recorded ranges, overflow modes and in-range inputs", "why_tests_cant": "the argument may be any callable; acceptance is by name, conversion by object identity, so a test with the usual strings cannot show what happens for other values", "anchors": ["src/HGQ/layers/base.py:HLayerBase.__init__", "src/HGQ/layers/base.py:_relu_act", "src/HGQ/proxy/convert.py:to_keras_layer", "src/HGQ/proxy/convert.py:ProxyLayerXFormer.__call__"]}
{"id": "C83", "title": "Ranges recorded during training describe the quantized values", "statement": "In float32, a quantizer with a deterministic strategy returns in training the number it returns at inference; hence the type derived by get_bits_exact from a range recorded during training (record_minmax is on in training) contains the inference result of every input seen in training, with and without relu.", "quantifier": "all float32 inputs below 2^23 units, all bitwidths in the default clip range, both deterministic strategies, all recorded ranges that include the training result", "why_tests_cant": "the straight-through trick adds and subtracts a bitwidth-dependent product, so the error depends on the exact bits of every input and bitwidth; a type that is one bit too small shows up only for particular values", "anchors": ["src/HGQ/quantizer/quantizer.py:HGQ.forward", "src/HGQ/quantizer/quantizer.py:HGQ.get_bits_exact", "src/HGQ/proxy/convert.py:ProxyLayerXFormer.__call__"]}
{"id": "C84", "title": "The attention layer computes multi-head attention", "statement": "HMultiHeadAttention(num_heads, key_dim, value_dim)(q, k, v, attention_mask) returns, in exact arithmetic, the output projection of the heads' scaled dot-product attention on the projected inputs; the returned scores of a query are non-negative and sum to 1; permuting keys, values and mask columns together changes nothing; a key excluded by a boolean mask is negligible if another key is not; the declared output shape is the shape of the returned tensor; and the layer can be used in a functional model.", "quantifier": "all numbers of heads, sizes, numbers of queries and keys, weights, inputs, masks and permutations", "why_tests_cant": "reshape/transpose index errors show up only for particular combinations of sizes; the statements range over all real weights and inputs", "anchors": ["src/HGQ/layers/experimental/attn.py:HMultiHeadAttention.call", "src/HGQ/layers/experimental/attn.py:HMultiHeadAttention.attn_build", "src/HGQ/layers/experimental/attn.py:HMultiHeadAttention.compute_output_shape"]}
{"id": "C85", "title": "The BOPs logged by the calibration callback do not depend on history", "statement": "The value CalibratedBOPs stores in logs['bops'] at the end of an epoch (equally, the number trace_minmax returns with its default reset) is determined by the model's current weights and bitwidths and the calibration data: ranges recorded earlier, recording switches left on or off and the batch size used do not change it, and after it all quantizers are in the same state. If it fails, it fails with the same error.", "quantifier": "all flat models of modelled layers, all weights, bitwidths, previously recorded ranges and recording flags, all calibration data with at least one entry, all pairs of batch sizes including none", "why_tests_cant": "the earlier history of a model is unbounded (any sequence of training steps, resets, traces), and so are the ways to split the data into batches", "anchors": ["src/HGQ/bops/bops.py:CalibratedBOPs", "src/HGQ/bops/bops.py:trace_minmax"]}
{"id": "C86", "title": "The loss reported for a model is a number", "statement": "model.evaluate (and every call of the model) returns the loss of the task plus, for each dense and convolution layer, beta times the estimated BOPs: a finite term that is not negative, and nothing when beta is 0, whether or not ranges have been recorded.", "quantifier": "all models of modelled layers, all kernels, bitwidths, recorded or unrecorded ranges, all non-negative strengths beta", "why_tests_cant": "it must hold for every state the range records can be in, including the one of a fresh model and the one left by ResetMinMax; infinities arise only in particular states", "anchors": ["src/HGQ/layers/dense.py:HDense.forward", "src/HGQ/layers/conv.py:HConv.forward", "src/HGQ/layers/base.py:HLayerBase.act_bw", "src/HGQ/quantizer/quantizer.py:HGQ.get_bits", "src/HGQ/bops/bops.py:ResetMinMax"]}
{"id": "C87", "title": "The BOPs term only pulls bitwidths down", "statement": "The term a dense or convolution layer adds to the loss has the value beta times its estimated BOPs; its gradient with respect to every bitwidth (of the kernel and of the layer before) is not negative and with respect to the weights it is zero, so a gradient step on it never raises a bitwidth; it stops pulling at a kernel bitwidth exactly when every multiplication with it has a pruned weight or a pruned input. The regularizer MonoL1(l1) refuses negative strengths and pulls every bitwidth with the same force l1.", "quantifier": "all kernels, bitwidths, recorded ranges, ways of sharing bitwidths, degeneracies, non-negative strengths and step sizes", "why_tests_cant": "gradients through relu, round and stop_gradient at every combination of bits, pruned or not, form an infinite family; a sign error appears only for some of them", "anchors": ["src/HGQ/layers/base.py:HLayerBase._kernel_bw", "src/HGQ/layers/base.py:HLayerBase.act_bw", "src/HGQ/layers/base.py:scale_grad", "src/HGQ/quantizer/quantizer.py:HGQ.get_bits", "src/HGQ/layers/dense.py:HDense.forward", "src/HGQ/layers/conv.py:HConv.forward", "src/HGQ/utils/utils.py:MonoL1"]}
{"id": "C88", "title": "Moving statistics stay meaningful over any training history", "statement": "After any sequence of training steps, with arbitrary changes of the trainable variables between them, the moving mean and variance of a batch-norm layer are the exponential averages of the initial values and the batch statistics; the moving mean lies between the smallest and the largest value the layer produced for the channel (or its initial value), the moving variance is never negative (so the argument of rsqrt is positive) and is bounded by a quarter of the squared spread of those values.", "quantifier": "all training histories (any number of steps, batches, weights), all channels, momentum in [0,1], both settings of center and scale, fused layers and HBatchNormalization", "why_tests_cant": "the statement is an invariant over unboundedly many steps with arbitrary optimizer updates in between", "anchors": ["src/HGQ/layers/dense.py:HDenseBatchNorm.bn_train_jit_forward", "src/HGQ/layers/conv.py:HConvBatchNorm.bn_train_jit_forward", "src/HGQ/layers/batchnorm_base.py:HBatchNormalization.forward"]}
{"id": "C89", "title": "Registering precisions does not change the proxy model", "statement": "to_proxy_model(..., skip_precision_reg=False) returns a proxy that computes the same outputs as with skip_precision_reg=True, for every input; deriving the type of a layer, which shrinks quantizers in place and asks the layers before it again, gives the same answer whatever was derived before, in any order and even after an aborted registration; and the derived type of each layer holds every value the layer takes.", "quantifier": "all proxy graphs of the layers the type rules know (any size, any wiring, shared layers), all sequences of registrations with any accumulator offset, completed or ended by an exception, all inputs", "why_tests_cant": "the queries mutate shared quantizer variables along every path of an arbitrary graph; whether a later query sees a changed state depends on the history, and whether an output changes on single values", "anchors": ["src/HGQ/proxy/precision_derivation.py:get_produced_kif", "src/HGQ/proxy/precision_derivation.py:get_input_kifs", "src/HGQ/proxy/precision_derivation.py:register_qconf", "src/HGQ/proxy/precision_derivation.py:get_config", "src/HGQ/proxy/convert.py:to_proxy_model"]}
{"id": "C90", "title": "Registration touches only widths and records each layer once", "statement": "Registering precisions keeps all layers, their wiring, weights, activations and rounding/overflow modes; the only change is that stored widths of quantizers get smaller, never larger. When it succeeds, each layer except the lookup tables has exactly one configuration written, its own, in the order of the layers; it is stored in the layer itself if that is a quantizer, else in a quantizer behind it, else in one before it. It fails for a layer if no quantizer lies before or behind it, leaving everything as it was.", "quantifier": "all proxy graphs, all sequences of registrations, completed or aborted", "why_tests_cant": "the search for a quantizer walks an arbitrary graph in both directions; the statement is about every graph and every position in it", "anchors": ["src/HGQ/proxy/precision_derivation.py:register_qconf", "src/HGQ/proxy/precision_derivation.py:get_whatever_quantizer", "src/HGQ/proxy/precision_derivation.py:_get_next_quantizer", "src/HGQ/proxy/precision_derivation.py:_get_last_quantizer", "src/HGQ/proxy/precision_derivation.py:get_produced_kif"]}
{"id": "C91", "title": "Storing every layer in its registered type does not change the model's outputs", "statement": "Let a data path apply the layers of a converted proxy model one after the other and store the output of each layer in the result type registered for it (with that type's rounding and overflow modes). Then on every input the outputs of the model are exactly those of the proxy model, and so is every intermediate value that a computing layer consumes; intermediate values that go only to quantizers may differ, but not visibly.", "quantifier": "all acyclic proxy graphs, all times during a registration at which a type was derived, all inputs", "why_tests_cant": "the stored types drop bits on purpose wherever a quantizer behind would drop them anyway; that this is invisible depends on all paths to all quantizers and all values", "anchors": ["src/HGQ/proxy/precision_derivation.py:get_result_kifRS", "src/HGQ/proxy/precision_derivation.py:get_request_kif", "src/HGQ/proxy/precision_derivation.py:merge_precision", "src/HGQ/proxy/precision_derivation.py:derive_result_kifRS_from_next_quantizers", "src/HGQ/proxy/precision_derivation.py:result_kifRS_layer_with_fusible_quantizer", "src/HGQ/proxy/precision_derivation.py:register_qconf"]}
{"id": "C92", "title": "A calibrated, deployed model reproduces the model on the calibration data", "statement": "Calibrate a model with trace_minmax on a dataset, convert it with to_proxy_model and let that register the precisions of all layers. Then on every sample of the dataset each tensor of the proxy model that stands for a tensor of the model has exactly the value the model predicts with the recorded ranges, although registration has taken bits away from the quantizers.", "quantifier": "all feed-forward networks of the supported layers, all calibration datasets and batch sizes, both overflow modes, all samples of the dataset", "why_tests_cant": "whether a dropped bit matters depends on the recorded ranges, the widths of every quantizer and the type inferred in front of it, for every graph and dataset", "anchors": ["src/HGQ/utils/utils.py:trace_minmax", "src/HGQ/proxy/convert.py:to_proxy_model", "src/HGQ/proxy/convert.py:ProxyLayerXFormer", "src/HGQ/proxy/precision_derivation.py:register_qconf", "src/HGQ/proxy/precision_derivation.py:get_produced_kif", "src/HGQ/proxy/fixed_point_quantizer.py:FixedPointQuantizer"]}
{"id": "C93", "title": "Inference leaves the recorded ranges alone", "statement": "Calling a model or using predict or evaluate on it never changes the activation ranges recorded by trace_minmax, in any history of building, training, calibrating, compiling and inference. Only trace_minmax and ResetMinMax change them, and trace_minmax records the data it is given.", "quantifier": "all networks, all histories of calls, predict, compile, training, resets, calibrations and calibrations ended by an exception", "why_tests_cant": "whether a call records depends on a flag at the moment a function was compiled for a signature, that is on the whole history", "anchors": ["src/HGQ/bops/bops.py:trace_minmax", "src/HGQ/layers/base.py:HLayerBase.call", "src/HGQ/layers/base.py:HLayerBase.record_minmax"]}
{"id": "C94", "title": "Kernel bitwidths are adapted to the weights once", "statement": "With the default configuration the kernel bitwidths are adapted to the initial weights once, at build time or at the first training step, and from then on only the optimizer changes them, whether the model is trained with model.fit or by calling it.", "quantifier": "all histories of eager calls, fit, predict and recompilation with batches of any signature, all weights and optimizer steps", "why_tests_cant": "the adaption is guarded by a Python flag that is tested when a training function is compiled, not when it runs; a test with one step sees the right bitwidths", "anchors": ["src/HGQ/layers/dense.py:HDenseBatchNorm.forward", "src/HGQ/layers/conv.py:HConv2DBatchNorm", "src/HGQ/layers/batchnorm_base.py:HBatchNormalization.forward", "src/HGQ/layers/base.py:HLayerBase.init_quantizers"]}
{"id": "C95", "title": "Generic functions dispatch alike on all supported Python versions", "statement": "A function for dispatch on the layer class (functools.singledispatch after importing HGQ) behaves on Python 3.10 as it does on Python 3.11: what is registered for a class or a union of classes handles exactly the arguments it would there.", "quantifier": "all sequences of registrations, all class hierarchies and arguments", "why_tests_cant": "the patch replaces a function of the standard library for the whole process, so also for registrations of other code", "anchors": ["src/HGQ/_patch.py:patch_singledispatch", "src/HGQ/proxy/precision_derivation.py:get_produced_kif", "src/HGQ/proxy/convert.py:apply_layer"]}
{"id": "C96", "title": "Importing HGQ gives standard output back", "statement": "Silencing the output while the package is imported leaves sys.stdout and sys.stderr as they were, also if the import raises; nothing printed outside of the silenced parts is lost and exceptions are not swallowed.", "quantifier": "all programs of prints, exceptions and silenced blocks", "why_tests_cant": "exceptions can come from any point of the silenced code, and the silencer is one global object with a single memory", "anchors": ["src/HGQ/__init__.py:Shutup"]}
{"id": "C97", "title": "Signature marks its input as being of a given type", "statement": "A Signature layer passes its input on unchanged and declares its type. The proxy of the layer hands on every tensor of that type unchanged (and only those), in both overflow modes, whatever numeric arguments describe the type, and saving and loading the layer changes nothing.", "quantifier": "all types per element, all tensors, all argument kinds (Python numbers, lists, arrays)", "why_tests_cant": "ranges over all values and types; the argument's array type decides how the numbers are stored", "anchors": ["src/HGQ/layers/passive_layers.py:Signature", "src/HGQ/proxy/convert.py:ProxyLayerXFormer", "src/HGQ/proxy/fixed_point_quantizer.py:FixedPointQuantizer"]}
{"id": "C98", "title": "Whole models and their proxies agree bit for bit in float32", "statement": "After trace_minmax on a dataset, both run in float32, the proxy returned by to_proxy_model returns on every sample of the dataset bit for bit the tensors of the HGQ model, in both overflow modes, however TensorFlow orders the additions in the matrix products, convolutions and sums of either model and of each batch, as long as the accumulated magnitudes stay within float32's integer range and the generated types have at most 22 bits (recorded ranges below 2^32). The recorded ranges and the predictions are then those of exact arithmetic, apart from numbers just below half a unit.", "quantifier": "all feed-forward graphs of HGQ layers, weights, bitwidths, datasets, batch sizes and accumulation orders", "why_tests_cant": "the order of additions is not specified and changes with hardware, batch size and compilation; tests see one of them", "anchors": ["src/HGQ/bops/bops.py:trace_minmax", "src/HGQ/proxy/convert.py:to_proxy_model", "src/HGQ/quantizer/quantizer.py:HGQ.forward", "src/HGQ/proxy/fixed_point_quantizer.py:gfixed_quantizer", "src/HGQ/layers/misc.py:HAdd"]}
{"id": "C99", "title": "A layer called at several places", "statement": "A model may call a quantizer, activation, addition or passive layer at several places. After trace_minmax over any dataset with any batch size, the range of each element of its quantizer is exactly the smallest and largest value the layer output at that element over all its calls and samples; to_proxy_model then gives every call its own proxy layer, and the proxy computes exactly the tensors of the model on the calibration data and on every input whose quantized values stay in the recorded ranges. A model that calls a dense or convolution layer at two places cannot be run at all: every call of it raises. Conversion is refused while a called layer has not recorded a range.", "quantifier": "all graphs of layers with any number of calls per layer, all weights, bitwidths, datasets and batch sizes, both overflow modes", "why_tests_cant": "the recorded range mixes all calls of the layer in the order the graph runs them; equality of model and proxy must hold for every graph and dataset", "anchors": ["src/HGQ/layers/base.py:ABSBaseLayer.input_bw", "src/HGQ/layers/base.py:HLayerBase.call", "src/HGQ/bops/bops.py:trace_minmax", "src/HGQ/proxy/convert.py:apply_layer", "src/HGQ/proxy/convert.py:Namer"]}
{"id": "C100", "title": "Calling layers at several places does not silently switch off the BOPs regularisation", "statement": "If a model can be called, every dense and convolution layer adds beta times its estimated BOPs to the loss, no matter how many times the layers before it are called, and trace_minmax counts it.", "quantifier": "all graphs, numbers of calls of each layer, kernels, recorded ranges and strengths beta", "why_tests_cant": "depends on the graph around the layer, which ranges over all models; a missing loss term raises no error", "anchors": ["src/HGQ/layers/base.py:ABSBaseLayer.input_bw", "src/HGQ/layers/base.py:ABSBaseLayer.input_bw_exact", "src/HGQ/layers/passive_layers.py:PLayerBase.act_bw", "src/HGQ/layers/dense.py:HDense.forward"]}
{"id": "C101", "title": "Outputs that were zero throughout calibration are zero in the deployed model for every input", "statement": "If calibration recorded only zeros at an element of an activation quantizer (or, for the quantizer of a layer with ReLU, no positive value), then after to_proxy_model and after any sequence of precision queries by the hls4ml conversion, the proxy model gives exactly zero at every position governed by that element, for every input. This holds in every rounding and overflow mode, including wrap-around, and although the precision queries rewrite the quantizer and can leave it with a negative number of bits.", "quantifier": "all proxy graphs, positions, inputs, recorded ranges, rounding and overflow modes, and all sequences of layer registrations, including failing ones", "why_tests_cant": "Tests compare the proxy on the data used for calibration, where the pruned outputs are zero anyway; what a wrap-around quantizer with a zero or negative bit count does on other inputs, after being narrowed by types of arbitrary upstream graphs, is not covered by samples.", "anchors": ["src/HGQ/proxy/fixed_point_quantizer.py: FixedPointQuantizer, gfixed_quantizer", "src/HGQ/proxy/precision_derivation.py: get_produced_kif, register_qconf", "src/HGQ/proxy/convert.py: get_overflow, to_proxy_model", "src/HGQ/quantizer/quantizer.py: HGQ.get_bits_exact"]}
{"id": "C102", "title": "Bit counts kept as signed bytes do not wrap around", "statement": "get_bits_exact, the proxy quantizers and the precision queries of the conversion keep bit counts as int8. For every recorded range and all fractional bits between -128 and 94 the proxy quantizer has the bit counts computed with unbounded integers. With fractional bits between -60 and 59 (the default clip is -23 to 23) this stays so after every sequence of precision queries, whatever the upstream types, as long as these have at least -60 integer and fractional bits. Outside these limits it can fail: a user bit clip up to 94 admits a quantizer that one query sets to -128 bits.", "quantifier": "all recorded ranges, fractional bits and signs of all elements of a quantizer, and all sequences of upstream types", "why_tests_cant": "Tests use small bitwidths; an overflow would need an extreme range together with an extreme bitwidth, in different elements of one quantizer.", "anchors": ["src/HGQ/quantizer/quantizer.py: HGQ.get_bits_exact", "src/HGQ/proxy/fixed_point_quantizer.py: FixedPointQuantizer.__init__, FixedPointQuantizer.result_t_kif", "src/HGQ/proxy/convert.py: ProxyLayerXFormer.get_kbiRS", "src/HGQ/proxy/precision_derivation.py: get_produced_kif"]}
{"id": "C103", "title": "Calibrating on more data never narrows a deployed type, and the order of the data does not matter", "statement": "Let trace_minmax run twice on the same model, the second time on a dataset that contains every sample of the first, in any order, with any repetitions and any batch sizes. At every layer with a quantizer the second run records at least the range of the first (including the adjustment for softmax, sigmoid and tanh). If both datasets have the same samples, the recorded states are equal. If the first dataset is not empty and the recorded values are below 2^32 in magnitude, every value of the fixed-point type derived from the first run (get_bits_exact, with pos_only false or true) is a value of the type derived from the second.", "quantifier": "all models of the modelled layers, well-formed quantizer states, pairs of datasets of which one contains the other, batch sizes, quantizer elements and both values of pos_only", "why_tests_cant": "Two concrete datasets show one pair; the claim ranges over all supersets, permutations, repetitions and batch splits of any dataset and any model.", "anchors": ["src/HGQ/bops/bops.py:trace_minmax", "src/HGQ/quantizer/quantizer.py:HGQ.get_bits_exact", "src/HGQ/quantizer/quantizer.py:HGQ.minmax_reg_reset"]}
{"id": "C104", "title": "Outside the calibrated range deployed layers saturate, or wrap in the aggressive mode", "statement": "Convert a calibrated layer with to_proxy_model(aggressive=False). For every input, also ones far outside the calibration data, the proxy of a quantizer, activation, addition, dense or convolution layer (with or without relu, any rounding strategy, also in pruned channels) returns the output of the HGQ layer moved to the nearest end of its deployed fixed-point type if it is outside. With aggressive=True the proxy of a layer without relu returns a value of the type that differs from the HGQ output by a multiple of 2^(k+i). A relu layer does not: the quantizer in front of the ReLU wraps first (a concrete layer turns 6 into 0 where the type would give 2).", "quantifier": "all layers, kernels, biases, bitwidths, recorded ranges, inputs and output positions", "why_tests_cant": "Tests compare the models on calibration data, where nothing overflows; out-of-range behaviour depends on the combination of range, bitwidths, rounding, bias folding and, for relu, on the ranges of the other elements.", "anchors": ["src/HGQ/proxy/convert.py:ProxyLayerXFormer", "src/HGQ/proxy/convert.py:get_kbiRS", "src/HGQ/proxy/convert.py:to_proxy_model", "src/HGQ/proxy/fixed_point_quantizer.py:SAT", "src/HGQ/proxy/fixed_point_quantizer.py:WRAP"]}
{"id": "C105", "title": "More bits never make quantization worse", "statement": "At inference, a quantizer with a larger bitwidth has an error |q(x) - x| at most that of the smaller bitwidth on every input and for every rounding strategy; the error falls below any bound with enough bits; and the quantizer keeps the order of its inputs. A saturating fixed-point layer with one of the five modes that round to nearest returns a value of its type nearest to the input, so a layer whose type contains another's is never further from the input. With the truncating mode this fails: adding a sign bit moves -1/4 from 0 to -1.", "quantifier": "all inputs, bitwidths, strategies, pairs of types with one contained in the other, rounding modes to nearest", "why_tests_cant": "A monotonicity claim over all pairs of bitwidths and all real inputs; sampled errors always look plausible.", "anchors": ["src/HGQ/quantizer/quantizer.py:HGQ.forward", "src/HGQ/quantizer/quantizer.py:q_round", "src/HGQ/proxy/fixed_point_quantizer.py:gfixed_quantizer"]}
{"id": "C106", "title": "Comparing proxy and model detects overflow exactly", "statement": "For every calibrated model and every input, seen in calibration or not, the proxy model built by to_proxy_model computes exactly the same tensors (every layer output and the final ones) as the HGQ model if and only if every layer output of the HGQ model on that input is a value of the fixed-point type the layer is deployed with. With aggressive=True the same holds for models without relu fused into a dense or convolution layer; with such layers equal tensors still mean that nothing overflowed, but the proxy may differ although nothing did. Comparing the final outputs alone is not enough: a hidden overflow can be masked by a later layer.", "quantifier": "all feed-forward models of quantizer, activation, addition, dense/convolution and passive layers, all calibrated states, all inputs, both overflow modes", "why_tests_cant": "The documentation recommends comparing the two models as a fast overflow check; a test can show that some overflow is seen, but not that no overflow on any input goes unseen and that no difference is a false alarm.", "anchors": ["src/HGQ/proxy/convert.py: to_proxy_model, ProxyLayerXFormer", "src/HGQ/proxy/fixed_point_quantizer.py: gfixed_quantizer", "src/HGQ/quantizer/quantizer.py: HGQ.get_bits_exact", "docs/getting_started.md"]}
{"id": "C107", "title": "Float32 results do not depend on how the device treats subnormal numbers and overflow", "statement": "Devices may keep subnormal numbers, flush them to zero, or overflow differently, but agree on numbers in the normal range, which are rounded to the nearest, ties to even. If the magnitudes of a model fit the float32 mantissa (as in C98) and its weights, biases and inputs are 0 or stay in the normal range before and after scaling by the resolution, at most 90 fractional bits, then calibration, inference and the proxy return the same tensors on every such device, with any accumulation orders: trace_minmax records the same ranges on two devices, and the proxy on one device equals the HGQ model on another, bit for bit. The condition is needed: with a resolution of 2^20 and truncation a normal number is quantized to -2^20 or to 0 depending on the device.", "quantifier": "all roundings that agree with round-to-nearest-even on numbers between 2^-126 and 2^127, all models of quantizer, activation, addition, dense/convolution and passive layers, all states, data sets, batch sizes and accumulation orders within the magnitude conditions", "why_tests_cant": "A test runs on one device with one setting of denormal flushing; the claim ranges over all of them and all inputs.", "anchors": ["src/HGQ/quantizer/quantizer.py: q_round, HGQ.forward", "src/HGQ/layers/base.py: HLayerBase.call", "src/HGQ/proxy/fixed_point_quantizer.py: gfixed_quantizer", "src/HGQ/utils/utils.py: trace_minmax"]}
{"id": "C108", "title": "The quantized model approaches the model without quantizers as bits are added", "statement": "For every feed-forward model and every bound of its inputs there is a constant K, depending only on the model with its quantizers removed, such that whenever all outputs and weights have at least F fractional bits (F >= 0) every tensor of the HGQ model at inference differs by at most K*2^-F from that of the model without quantizers, for every rounding strategy and bitwidth sharing; so every accuracy is reached with enough bits. After calibration the same holds for the proxy on the calibration data. Activation functions and passive layers must be Lipschitz continuous on bounded inputs (reshape, permute, pooling, concatenation and Lipschitz pointwise functions are); with a discontinuous activation function the error can stay 1 for every number of bits.", "quantifier": "all models of quantizer, activation, addition, dense/convolution and passive layers, all quantizer configurations and bitwidths, all bounded inputs, all calibration data sets", "why_tests_cant": "A test compares a few bitwidths on a few samples; the bound holds for all inputs in a region and all bitwidths at once.", "anchors": ["src/HGQ/quantizer/quantizer.py: q_round, HGQ.forward, HGQ.bias_forward", "src/HGQ/layers/dense.py: HDense.jit_forward", "src/HGQ/layers/conv.py: HConv.jit_forward", "src/HGQ/layers/misc.py: HQuantize, HActivation, HAdd", "src/HGQ/proxy/convert.py: to_proxy_model"]}
{"id": "C109", "title": "A training forward pass computes what inference computes, exactly for deterministic quantizers and up to the resolution otherwise", "statement": "Calling a model with training=False never depends on random numbers. If every quantizer uses standard_round or floor and exact_q_value=True, calling the whole model with training=True on a batch gives exactly the tensors of inference, and leaves exactly the ranges recorded that tracing the batch would record. With any strategy (stochastic rounding and noise injection included), and also with exact_q_value=False, the training forward pass succeeds for all random numbers, and every tensor is within K*2^-F of the model without quantizers and within 2K*2^-F of inference, where F is a lower bound of all fractional bitwidths and K depends only on the model without quantizers and a bound of the inputs.", "quantifier": "all layer graphs without dropout and batch-fused normalisation, quantizer states, in exact arithmetic (C83 has the float32 rounding of a single quantizer), batches, strategies and random numbers", "why_tests_cant": "The claim ranges over all graphs, bitwidths, batches and all outcomes of the random number generator; a test sees one draw.", "anchors": ["src/HGQ/layers/base.py: HLayerBase.call", "src/HGQ/layers/dense.py: HDense.jit_forward", "src/HGQ/layers/conv.py: HConv.jit_forward", "src/HGQ/quantizer/quantizer.py: q_round, HGQ.forward, HGQ.bias_forward"]}
{"id": "C110", "title": "A frozen layer does not change in training", "statement": "Setting layer.trainable = False (or running a model with training=True without an optimizer step) leaves the inference output of the layer as it was, after any number of training passes on any batches; apart from recorded ranges, which grow, nothing changes.", "quantifier": "every model, every layer setting, every sequence of calls in training or inference mode with any batches and random numbers", "why_tests_cant": "a history of unboundedly many passes; a test would have to train a frozen layer with every combination of settings", "anchors": ["src/HGQ/layers/base.py:HLayerBase.call", "src/HGQ/layers/dense.py:HDenseBatchNorm.forward", "src/HGQ/layers/dense.py:HDenseBatchNorm.bn_train_jit_forward", "src/HGQ/layers/conv.py:HConvBatchNorm.bn_train_jit_forward", "src/HGQ/quantizer/quantizer.py:HGQ.__call__"]}
{"id": "C111", "title": "Type derivation settles after one registration", "statement": "The type get_produced_kif returns for a layer is the same whatever was derived or registered before, although each derivation shrinks quantizers in place. Once the precisions of all quantizers were registered successfully, the quantizers have reached a final state that does not depend on the order of registration, on earlier derivations or on the accumulator offset, and no later derivation or registration changes them.", "quantifier": "all proxy graphs of the layers the type rules know (any size, any wiring, shared layers), all quantizers (any formats, rounding and saturation), all sequences of derivations and registrations in any order, completed or ended by an exception", "why_tests_cant": "The number of orders and histories grows without bound, and whether a second derivation agrees depends on every combination of widths before and inside a quantizer.", "anchors": ["src/HGQ/proxy/precision_derivation.py:get_produced_kif", "src/HGQ/proxy/precision_derivation.py:get_input_kifs", "src/HGQ/proxy/precision_derivation.py:register_qconf", "src/HGQ/proxy/convert.py:to_proxy_model"]}
{"id": "C112", "title": "Registering a proxy model again writes the same types", "statement": "Registering the precisions of a proxy model a second time writes the same configuration for every layer as the first time.", "quantifier": "all proxy graphs of the layers the type rules know, all registrations, repeated any number of times, in any order, after any derivations", "why_tests_cant": "Whether the first registration already sees the final quantizers depends on the order of layers and on all formats in the model.", "anchors": ["src/HGQ/proxy/precision_derivation.py:register_qconf", "src/HGQ/proxy/precision_derivation.py:result_kifRS_layer_with_fusible_quantizer", "src/HGQ/proxy/precision_derivation.py:get_result_kifRS"]}
{"id": "C113", "title": "A model with fused batch normalisation is deployed as it is evaluated, after any training", "statement": "Build a model with HDenseBatchNorm, HConv1DBatchNorm or HConv2DBatchNorm and PDropout layers among others and train it: any sequence of forward passes with training=True (any batches and random numbers) or training=False, and of assignments to kernels, biases, bn_gamma, bn_beta and bitwidths, ending with a forward pass. No pass raises an error. Afterwards trace_minmax on a dataset returns the predictions of the model, and on every sample of the dataset the proxy model computes exactly the tensors the trained model computes with training=False, the moving statistics accumulated in training included, in either overflow mode.", "quantifier": "all feed-forward models of the supported layers, all histories of training, all datasets, batch sizes, both overflow modes", "why_tests_cant": "The deployed weights depend on the moving statistics, which depend on every batch the model was trained on.", "anchors": ["src/HGQ/layers/batchnorm_base.py:HBatchNormBase", "src/HGQ/layers/dense.py:HDenseBatchNorm", "src/HGQ/layers/conv.py:HConvBatchNorm", "src/HGQ/proxy/convert.py:to_proxy_model", "src/HGQ/bops/bops.py:trace_minmax", "src/HGQ/layers/passive_layers.py:PDropout"]}
{"id": "C114", "title": "A deployed model with fused batch normalisation approximates the network that normalises in separate steps", "statement": "After any training history and calibration, the proxy of a model with fused batch-norm layers differs on the calibration data by at most K*2^-F from the network without quantizers in which every such layer is a plain dense or convolution layer followed by batch normalisation with the moving statistics, when all weights and outputs have at least F fractional bits. K depends only on the model without quantizers and on the bound of the inputs.", "quantifier": "all feed-forward models, all histories of training, all F, all datasets within the bound, batch sizes, both overflow modes", "why_tests_cant": "A bound over all weights, statistics, bitwidths and inputs.", "anchors": ["src/HGQ/layers/batchnorm_base.py:HBatchNormBase.fused_kernel", "src/HGQ/layers/batchnorm_base.py:HBatchNormBase.fused_bias", "src/HGQ/layers/dense.py:HDenseBatchNorm", "src/HGQ/layers/conv.py:HConvBatchNorm", "src/HGQ/proxy/convert.py:to_proxy_model"]}
{"id": "C115", "title": "The ranges recorded in a training pass are those inference needs", "statement": "Calling a model with fused batch-norm layers with training=True on a batch records in every layer the ranges of the values inference computes for that batch, so that a proxy made from them is exact on the batch.", "quantifier": "all feed-forward models, states, batches", "why_tests_cant": "Depends on all weights, statistics and batches.", "anchors": ["src/HGQ/layers/dense.py:HDenseBatchNorm.bn_train_jit_forward", "src/HGQ/layers/conv.py:HConvBatchNorm.bn_train_jit_forward", "src/HGQ/layers/base.py:HLayerBase.call"]}
{"id": "C116", "title": "The moving statistics of every fused layer of a model are averages over the training passes of the model", "statement": "Train a model with HDenseBatchNorm, HConv1DBatchNorm or HConv2DBatchNorm layers among others by any sequence of forward passes with training=True or training=False and of assignments to the trainable variables. Afterwards the moving mean and variance of every such layer are, for each channel, the exponential averages of their initial values and of the mean and variance of what the layer computed in each pass with training=True: its inputs in that pass times its kernel of that moment plus its bias of that moment. Passes with training=False and assignments never move them. With a momentum in [0, 1] the variance stays non-negative and the mean stays in every interval that contains its initial value and all values computed.", "quantifier": "all models (graphs of any layers, in any position), histories of passes and assignments, batches, random numbers, layers and channels", "why_tests_cant": "The statistics depend on the whole history of the model and on the layers before; a test follows one history of one model.", "anchors": ["src/HGQ/layers/batchnorm_base.py:HBatchNormBase", "src/HGQ/layers/dense.py:HDenseBatchNorm.bn_train_jit_forward", "src/HGQ/layers/conv.py:HConvBatchNorm.bn_train_jit_forward", "src/HGQ/layers/base.py:HLayerBase.call"]}
{"id": "C117", "title": "Forward passes change no trainable variable except by clipping bitwidths", "statement": "After any history, assign values to the trainable variables of every layer of a model and then call the model any number of times, with training=True or not. Every layer still holds exactly the kernel, bias, bn_gamma, bn_beta and kernel bitwidths that were assigned; bitwidths of outputs are the assigned values, clipped to the range of the quantizer as soon as the model was called.", "quantifier": "all models with plain and fused layers, histories before the assignment, assigned values, sequences of passes (training or not, any batches and random numbers), layers", "why_tests_cant": "Calls write moving statistics, recorded ranges and clipped bitwidths as side effects; that nothing else is written has to hold for every layer and sequence of calls.", "anchors": ["src/HGQ/layers/base.py:HLayerBase.call", "src/HGQ/quantizer/quantizer.py:HGQ.__call__", "src/HGQ/layers/dense.py:HDenseBatchNorm.bn_train_jit_forward", "src/HGQ/layers/conv.py:HConvBatchNorm.bn_train_jit_forward"]}
{"id": "C118", "title": "Dropout layers act in training passes only, value by value, and keep their rate", "statement": "Take a model with PDropout layers after any history of forward passes and assignments to the trainable variables and call it once more. Each dropout layer still has its rate. In a call with training=False its output is its input. In a call with training=True every value of every sample is treated by itself: it becomes 0 if its own random number is below the rate and is divided by 1 - rate otherwise; the shape stays.", "quantifier": "all models with plain, fused and dropout layers in any position, histories, batches, random numbers, rates, samples and positions", "why_tests_cant": "Dropout is random, and the layer sits among layers whose calls change state; a test sees one mask of one model.", "anchors": ["src/HGQ/layers/passive_layers.py:PDropout", "src/HGQ/layers/passive_layers.py:PLayerBase", "src/HGQ/layers/base.py:HLayerBase.call"]}
{"id": "C119", "title": "A convolution reports the same BOPs in both data formats", "statement": "Take an HConv1D or HConv2D layer (any rank, strides, dilation, groups, padding) with data_format='channels_last' and one with data_format='channels_first' and the same kernel, and feed the second one the transposed inputs. It computes the same values, transposed, and reports the same BOPs, during training and exactly.", "quantifier": "all convolutions, kernels, biases, inputs, bits of inputs and weights, parallel factors", "why_tests_cant": "The count is a sum over all products divided by a number derived from the shape; a test with one shape can agree by accident (it does whenever the last dimension equals the number of filters).", "anchors": ["src/HGQ/layers/conv.py:HConv.post_build", "src/HGQ/layers/conv.py:HConv.convolution_op", "src/HGQ/layers/conv.py:HConv.forward", "src/HGQ/layers/conv.py:HConv.compute_exact_bops"]}
