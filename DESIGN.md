# Formal model of HGQ in Lean 4 — design

HGQ (`/repo`) trains neural networks whose weights and activations carry individually learned
fixed-point bitwidths and converts a trained model into a *proxy model*: plain Keras layers
separated by fixed-point quantizers, claimed to be bit-accurate. This directory contains a Lean 4
model of that code and proofs of the properties in `properties.jsonl`.

## Layout

* `lean/Verif/Model/*.lean` — the model. One definition per function of the code; each carries a comment
  with the file and line range it models and the simplifications made.
* `lean/Verif/Spec/*.lean` — small, model-independent specifications (what an `ap_fixed` value is, what
  "nearest" means, ...). Property statements use these and the modelled API functions only.
* `lean/Verif/Lemmas/*.lean` — helper lemmas; not part of any claim.
* `lean/Verif/Props/*.lean` — the property theorems. Names start with the property id (`C03_...`).
  Beside each theorem an `example` instantiates its hypotheses on a concrete, non-trivial case.
* `MANIFEST.json` maps property ids to theorem names; `seeded/LOG.jsonl` records mutation experiments.

## Numbers

Python floats are modelled as rationals `ℚ` with exact arithmetic (float32/float64 rounding is
treated separately: C57, C58, C78, C83 and C98 say where float32 evaluation and the exact model agree, and where not).
`2.**n` is the zpow `(2:ℚ)^n`; `floor(log2 x)` / `ceil(log2 x)` for `x>0` are `Int.log 2 x` / `Int.clog 2 x`
(exact; NumPy's log2 is exact at powers of two, elsewhere its rounding error is not modelled);
`log2 0 = -inf` is modelled by an explicit `⊥`. `+inf/-inf` in min/max records are `none`.
int8 storage of bit counts is modelled by `ℤ`; C102 proves that the bytes do not wrap around within wide limits on the bitwidths.
Tensors are flat lists together with an index map saying which quantizer element each position uses
(that is what broadcasting of a `(1,..,1,n)`-shaped bitwidth does); shape arithmetic is modelled separately.
Exceptions/assertions are `Except`/`Option` values.

## Method per property

| id | model | proof |
|----|-------|-------|
| C01-C08 | `TRN … WRAP_SM`, `gfixed_quantizer` as functions on ℚ | case analysis on modes; floor/mod algebra; value set specified by `BitVec` patterns |
| C09 | arrays of formats, `result_t_kif`, `heterogeneous` as list folds | induction on the array |
| C10-C12, C14 | `q_round`, `HGQ.forward` with noise as an argument | floor algebra; C14 as a statement on the set of noise values (its length) |
| C13 | the same program over dual numbers, `stop_gradient` zeroes the tangent | computation over a commutative ring |
| C15 | quantizer state machine: call / external update | invariant over histories |
| C16, C47-C50, C52 | recorder and `trace_minmax` as state transformers over lists of batches | induction over histories and chunks |
| C17-C20, C23 | `get_bits_exact` (both modes) | Int.log/Int.clog characterisation |
| C21, C22, C24-C27 | layers as tap lists (bilinear maps), proxies as their quantizer stacks, graphs as SSA lists | per-layer lemma, then induction over the graph and over the calibration run |
| C28, C29 | fused kernel/bias formulas with `rsqrt` an arbitrary function | field algebra; counterexamples |
| C30, C33 | `get_arr_container` incl. binary search; `activation_kif_forward` enumeration | loop invariant; log lemmas |
| C31, C32 | `get_arr_bits`; approximate `get_bits` | divisor count = 2-adic valuation |
| C34-C38 | type-derivation rules | interval/grid arithmetic; counterexamples where the rule is unsound |
| C39 | `get_config` size check | case analysis |
| C40 | string printer and the regular expression's matcher on `List Char` | induction on digit strings |
| C41, C42 | LUT construction and indexing | two's complement index arithmetic |
| C43-C46 | graph conversion with memo table, Namer, transformer iteration | induction on fuel/topological order; pigeonhole |
| C51 | BOPs sums | sum monotonicity |
| C53, C54 | heap of config dicts with references | frame reasoning; counterexample |
| C55, C56 | shape arithmetic, broadcasting rule | induction on lists; counterexample |
| C57, C58 | float32 rounding `fl` on ℚ (24-bit mantissa, no overflow/underflow) | error analysis by exact representability |
| C59 | `adapt_bw_bits` on ℝ with `Real.logb` | real inequalities |
| C60 | QKeras quantizer definitions vs. mapped formats | case analysis |
| C61 | channels-first positions of a convolution output, and the bias broadcast of `bias_forward` | per-position algebra; counterexample |
| C62 | one call of the layer as a state transformer: kernel, bias and pre-activation quantizer, clip inside the call | case analysis on the clip; counterexample |
| C63 | `get_kbiRS` / `FixedPointQuantizer.__init__` assertions after a traced tanh | bounds on the recorded range of values in [-1,1] |
| C64 | fused batch-norm layer against `Spec` batch normalisation of the unfused layer | field algebra; exact gap |
| C65 | `jit_forward` and `copy_fused_weights` with the same quantized weights | refinement layer → proxy weights |
| C66 | `get_requested_kif`/`derive_result_kifRS` for all pairs of modes | grid/interval arithmetic; counterexamples per mode |
| C67 | `fusible` and the layer result type | congruence modulo the type's range |
| C68 | `get_config_wight_accum_result_bias`: accumulator and bias type | membership in `Spec` ap_fixed value set |
| C69, C70 | nested `convert_model`, renaming of layer objects | graph semantics with several outputs; heap of layer names |
| C71 | C43 composed with the per-layer theorems | induction over the flattened graph |
| C72 | `UnaryLUT.from_activation` table construction | two's complement enumeration |
| C73 | predictions of `trace_minmax` per output and batch | counterexample; one-batch case |
| C74 | dense and convolution against index-sum specifications | induction on list/tensor indices |
| C75 | `act_bw_exact` of passive layers over shapes | flow of bit arrays through a graph by induction |
| C76, C77 | estimated versus exact bits of kernel and activations | C32 lifted through sums; sharing patterns |
| C78 | float32 evaluation of layer and proxy | C57 + C58 + C24/C25 |
| C79-C81 | `get_config`/`from_config` per class, HDF5/SavedModel weights as a map from variables to values, training histories with save/load steps | induction over histories; per-class key computation |
| C82 | activation argument checks, `get_keras_layer` and the proxy's relu handling | case analysis; extensional equality |
| C83 | `forward` in training mode with every float32 operation rounded | error analysis; counterexamples evaluated by the kernel |
| C84 | attention layer over ℝ, `softmax` from `Real.exp` | sum re-indexing; limits of masks as `WithBot` scores |
| C85 | `CalibratedBOPs` on top of the trace model | the traced states are a function of bitwidths and data only; congruence of the BOPs in the states of quantized layers |
| C86 | the added losses in extended floats (`fin`, `inf`, `-inf`, `nan`) | sums and products of finite non-negative terms; absorption of `inf`/`nan`; concrete network after a reset |
| C87 | the loss terms as dual numbers (value and derivative) | value and derivative of one bitwidth; sums of non-negative terms |
| C88 | training histories as lists of steps | fold over the steps; closed form of the exponential average; Popoviciu's inequality |
| C89 | whole proxy graphs with the function of each layer; type queries as a recursion that mutates quantizers and does not remember answers; registration as a state machine | invariant: every quantizer is as built or as after one query with the types of a single pass; queries are idempotent under the fit conditions; values lie in the derived types by induction over the graph |
| C90 | the same state machine, search for a quantizer as recursion over outbound and inbound layers | simulation relation "same but narrower" closed under every operation; soundness and completeness of the search with respect to an inductive path relation |
| C91 | the graph of C89 evaluated with every output cast to its registered type | invariant by induction over the graph: each stored value is equal if something computes with it, else in its derived type and indistinguishable for every quantizer it reaches through layers that move values; per layer the three sources of a result type (C36, C37, C67) |
| C92 | the composition of C26, C89 and C91: calibration (`Model/Net`), the proxy graph of the network layer by layer (`Model/Deploy`), registration (`Model/PrecGraph`) | refinement: the graph built from the network computes the tensors of its proxy (induction over the network); the recorded ranges are attained (invariant over batches), so rounding of values of the upstream type bounds them, hence registration keeps the bits they need (induction over the graph) |
| C93 | a model object with its compiled functions: a cache from input signature to the recording flags seen at trace time; histories of calls, predict, compile, training, resets, (interrupted) calibrations | invariant over histories: neither layers nor cache record; witnesses for the negations; for all histories a small automaton (`Spec.Recording`) that says which inferences record, by invariant |
| C94 | one layer under eager calls and compiled training functions; the adaption flag is read at trace time | invariants `Done`, `Waiting`, `OnlyFit` over histories; the bitwidths of repeated adaption as a falling sequence, real logarithms |
| C95 | `register` of Python 3.11 and the patched one as functions on tables | induction over registrations; negation for the lost forms |
| C96 | big-step semantics of prints, exceptions and `with shutup` blocks over the two streams | structural induction over programs; negation for nested blocks |
| C97 | `Signature` construction, reload and proxy with the array types of its arguments | element by element with C01 and C02; a model behind a Signature by C26 |
| C98 | networks, `trace_minmax` and the proxy in float32; accumulation orders are a parameter of every layer, sample, batch and run | C57, C58 and C78 per layer (values just below half a unit by rounding to the grid first), induction over graph and batches as for C26; `C98_exact`: float32 runs equal the exact ones |
| C99 | models as a list of layers and a list of calls, one state per layer; calling, calibrating and converting them | refinement to the model with one layer per call (C26), with the states after all calls; extrema attained by an invariant over calls and batches |
| C100 | `input_bw` with its `except AssertionError`, and the numbers of calls | `act_bw` of quantizer layers does not depend on the number of calls; general negation behind reused reshape and pooling layers |
| C101 | `registerAll` (registration), `FPQ.produced` (the rewriting precision query), `KBI.apply` with zero or negative bits | invariant: an unsigned element with at most zero bits stays one under every query (induction over the recursive query, then over the registrations); such an element maps everything to zero in all modes |
| C102 | the same conversion steps with every stored count and sum reduced to a signed byte (`Model/Int8`) | bounds on the recorded types; invariant over sequences of queries (counts only shrink, and not below the lower bounds of the types involved) |
| C103 | `Net.trace` on two datasets (`Model/Net`), types by `bitsExact` | ranges are reached on the samples (`Net.Attained`) and contain all samples (`Net.InRange`), so a superset gives a superset; the type of the smaller range is minimal (C18), so it is contained in the larger type |
| C104 | `Node.proxyAt`, `LinLayer.proxyOut` (`Model/Net`, `Model/Layer`) on inputs without any range condition | closed form of the saturating and wrapping quantizer; for relu, truncating to more bits before rounding changes nothing and the first quantizer saturates no lower than the second |
| C105 | `QConf.forward`, `gfixedQuantizer` (`Model/Quantizer`, `Model/FixedPoint`) | the finer grid contains the coarser one and rounding picks the nearest or the largest lower value; clamping a nearest value stays nearest |
| C106 | `Props/Overflow.lean`: per layer, from the closed forms of C104, clamping changes nothing exactly on the values of the type, and two values of a type that differ by a multiple of its size are equal; induction over the graph, both evaluations extend the list of tensors. |
| C107 | `Props/Conforming.lean`: the float32 model takes the rounding as a parameter; nearest-even determines the result on normal numbers, so two conforming roundings agree on everything that is a multiple of a unit in the normal range, which all intermediate results are; then the induction of C98 once more. |
| C108 | `Spec/FloatNet.lean`, `Props/QuantError.lean`: forward error analysis; per layer, bounds of the outputs and of their error from those of the inputs, the error in units of `2^-F`; induction over the graph with the constant chosen before the quantizers. |
| C109 | `Model/TrainNet.lean`: the forward pass of a graph with `training=True`, random numbers as arguments; equality by rewriting every quantizer call, the gap by the perturbation relation of C108. |
| C110 | `Net.passes` (Model/TrainNet.lean) and `BNLayer.frozenFit` (Model/BNFit.lean): sequences of calls with fixed weights; induction over the sequence. The update of the statistics in fused layers is the violation. |
| C111 | One quantizer: the second derivation is computed from the widths left by the first, element by element (linear arithmetic). Graph: `Between` (every layer is as at the start or as after its own derivation) is kept by every operation; a complete registration reaches every quantizer, by induction from the outputs (a quantizer that is not asked by its own registration is asked by the quantizer behind it). |
| C112 | What a run writes is a function of the quantizers it starts from, which are final by C111. The first run is the violation. |
| C113 | `Model/FusedNet.lean`: graphs with fused batch-norm layers, forward passes that move their statistics, assignments to variables. Induction over the history: layers stay sound, a pass clips the bitwidths; then C26 for the model at inference. |
| C114 | `Spec/FusedNet.lean` has the network with separate batch normalisation; equal to the model without quantizers by C64 in every layer, the distance by C108. Bias and `scale=False` are the violations. |
| C115 | A training pass of a layer whose statistics agree uses the kernel and bias of inference (C28); induction over the graph, then C26 for inputs in the recorded ranges. |
| C116 | The inputs of a layer in a pass are read off the tensors the pass returns; a pass with `training=True` maps the statistics by one averaging step, every other step leaves them. Induction over the history; the closed form and the bounds by C88. |
| C117 | A pass maps a layer to itself with other moving statistics, and the bitwidths of its state to their clipped values; clipping is idempotent. Induction over the passes after the assignment. |
| C118 | The tensors a pass returns contain the inputs and outputs of every layer (induction over the layers); a dropout layer is mapped to itself by every step (induction over the history). |
| C119 | The taps of a channels-first convolution (`convTapsFirst`) at channel `c`, position `o` are those of the channels-last one at `o`, `c` with transposed input indices, for every rank (induction over the dimensions for the index bounds); then the double sum is exchanged and the two divisors are compared. |

Where the unchanged code violates a property as stated, the negation is proved on a concrete witness and
the strongest correct restriction found is proved as a `_partial` theorem. The list of such findings is kept below.

## Findings

Each line: the property, what fails, and what is proved instead. The named theorems are the witnesses.

<!-- findings:begin -->
* **C28** (Fused batch-norm: training and inference agree when the statistics agree): Kernel: proved for both settings of scale. Bias: violated by the code unless bn_beta=0 (training ignores bn_beta), for center=False with a bias (training adds no bias), and for scale=False (inference still multiplies the mean by rsqrt(1+eps)); exact gaps and counterexamples proved.
* **C29** (HBatchNormalization computes batch normalisation): Violated by the code: the mean is divided by the kernel instead of multiplied; C29_iff characterises exactly when the result is right, C29_fails is a counterexample.
* **C31** (get_arr_bits reports the true highest/lowest set bits): Holds for at most 31 fractional bits in exact arithmetic; C31_iff: exactly for arrays with at most 32 fractional bits and no entry +-2^-32; fails for +-2^-32 (C31_fails_at_32_bits) and overcounts powers of two in float32 (C31_float32_overcount); C31_float32_iff: for float32 arrays in float32 exactly if, besides, the largest magnitude is no power of two from 2^-8 on.
* **C32** (Training-time bit counts never underestimate the exact ones): Exact arithmetic and grid-aligned ranges; fails in float32 (C32_float32_underestimates) and for ranges clamped off the grid (C32_needs_grid). For any range: always with relu (C32_act_bw_relu), otherwise exactly under the condition of C32_act_bw_iff. C32_kernel_float32_iff: for kernels in float32 exactly if no weight of the largest magnitude is a power of two from 2^-8 on that is also the resolution of its quantizer.
* **C34** (Derived output types of passive and arithmetic layers contain every output): Proved for concatenation, max pooling and addition for all inputs. The code violates it for the other layers, with counterexamples; C34_subtract_iff, C34_avg_pool_iff, C34_dot_iff and C34_linear_iff say exactly for which types, window sizes, lengths and weights the derived type contains every output.
* **C35** (Deriving the produced type of a quantizer does not change what it computes): Proved for homogeneous SAT/WRAP quantizers under four explicit conditions, unconditionally for wide upstream types, plus idempotence; kernel-checked counterexamples for every excluded combination (the code does change outputs there). Heterogeneous wrapping quantizers whose sign and integer bits are kept are covered too (C35_heterogeneous_wrap, C35_heterogeneous_idempotent). Idempotence holds for every quantizer and upstream type: C111_quantizer. C35_wrap_iff and C35_sat_iff give the exact condition, in every rounding mode, for homogeneous wrapping and saturating quantizers of at least one bit (C35_wrap_trn, C35_wrap_rnd: the same in numbers); C35_sat_negative_width: the code can store a negative width, after which the quantizer no longer maps zero to zero.
* **C42** (Activation becomes a LUT exactly when the table fits, without crashing): False of the code at the constructor's own limits (LUT_SIZE_LIMITATION, 4096 by default, compared strictly) and for types without bits: C42_exact gives, for all limits and types, exactly when the layer is kept, when it becomes a table and when conversion crashes. Concrete crashes: T=4096 with a 12-bit input, and inputs without bits.
* **C47** (After trace_minmax returns, plain inference does not change the recorded ranges): Violated by the code for no_bops_computation=True: C47_no_bops_keeps_recording is a counterexample; proved for every other option.
* **C48** (trace_minmax(rst=False) extends the ranges): Violated by the code after an ordinary first call: the second call then ignores its data, whatever its other arguments (C48_second_call_ignores_data), and only applies its cover factor again to the ranges it finds (C48_second_call_covers); with cover factor 1 it changes nothing (C48_ordinary_first_call; C48_rst_false_records_nothing is a concrete case). Proved when the first call used no_bops_computation=True and cover factor 1, for any cover factor of the second call unless a sigmoid or tanh layer has negative fractional bits (C48_extends_cover_partial), for factor 1 in all models (C48_extends_partial); in the remaining case it fails as well (C48_cut_twice).
* **C49** (trace_minmax and reset_minmax reach nested models): Violated by the code: trace_minmax does not enter nested models and leaves each of their layers exactly as it was (C49_nested_untouched; C49_nested_not_traced is a concrete case). Proved: layers listed by the model itself; ResetMinMax reaches every depth.
* **C53** (Default quantizer configs are isolated): Violated by the code: set_default_*_conf keeps a reference (C53_set_keeps_reference, C53_build_changes_defaults). Proved for programs that leave the dict passed alone; isolation of get_default_*_conf is proved without conditions (C53_get_isolated).
* **C54** (A layer's rounding strategy does not depend on which other layers were built before it): Violated by the code when a dense layer shares its 'auto' dict with an HActivation (C54_shared_with_activation). Proved for every other sharing and build order, and without conditions for layers that use the defaults (C54_default_configuration).
* **C56** (Min/max recording works for every documented skip_dims): Violated by the code when a dimension with its own bitwidths (of size other than 1) precedes a shared one (C56_other_dimensions, C56_except_1st). C56_iff: recording succeeds exactly when this is not so and no dimension is listed twice; C56_right: whenever it succeeds, the recorded values are right.
* **C57** (Float32 evaluation of the quantizers equals exact arithmetic within the mantissa): Violated by the code at one input per rounding mode and format: the largest float32 number below half a unit (C57_just_below_half, C57_round_just_below_half). Proved for all other inputs; exact for every input with the floor strategy. C107 shows that overflow and subnormal numbers make no difference. C57_fixed_point_iff and C57_round_iff: exactly which inputs, modes and formats give another value.
* **C60** (QKeras quantizers map to equivalent fixed-point layers): Violated by the code with the default overflow mode WRAP (C60_wrap_differs), for one-bit signed quantizers (C60_one_bit_differs), for the scale of binary (C60_binary_scale_ignored) and the slope of quantized_relu (C60_relu_slope_ignored), which are ignored. Proved otherwise. C60_wrap_iff: exactly the inputs on which quantized_bits converted with WRAP agrees.
* **C61** (channels_first convolutions are deployed exactly): Violated by the code: C61_channels_first_fails is a counterexample; proved for a single bitwidth and for layers without bias. C61_iff: exact condition, the two roundings of the bias must be equal.
* **C62** (The first call after bitwidths leave the clip range agrees with later calls): Violated by the code: C62_first_call_fails is a counterexample (bias quantized before clipping). Proved inside the clip range, for layers without bias and, in general, when the bias quantizes to the same values before and after clipping (C62_same_bias_partial); the second and all later calls always agree (C62_later_calls). C62_iff: exact condition, the bias must round to the same value before and after clipping.
* **C63** (A traced tanh layer can always be deployed): Violated by the code: C63_tanh_negative_bits is a counterexample; proved for non-negative fractional bits; C63_iff_partial is the exact condition and C63_values says when it fails.
* **C64** (A fused batch-norm layer equals the plain layer followed by batch normalisation): Violated by the code for a non-zero bias (the bias is not scaled): exact gap C64_gap, exact condition C64_iff, counterexample C64_bias_fails; proved for zero bias.
* **C66** (Derived data-path types are safe for every rounding and overflow mode): Fails: for every rounding mode other than TRN/RND, for SAT_ZERO and WRAP_SM inputs, and for unsigned values before signed wrapping quantizers (counterexamples proved). Proved when nothing is truncated; the safe modes are C36/C37. C66_rounding_iff gives the exact table for the rounding mode: which modes, and with how many extra bits, cannot see the truncation; C66_derived_iff and C66_two_extra_bits_iff state it for the types the code derives (safe exactly for TRN, RND, or at most two bits rounded away). C66_wrap_iff: exact condition for wrapping quantizers with these modes.
* **C68** (The declared bias type represents the deployed bias): Holds iff the bias is a value of the accumulator type (C68_iff, with that type spelled out); counterexamples proved for finer and larger biases.
* **C69** (Nested models with several outputs are flattened correctly): The code violates it: C69_second_output_lost, and C69_selected_output for every nested model with one input and two or more outputs, whichever output is chosen. Proved for nested models with one output each. For any number of outputs C69_all_outputs gives what the flattened model computes: every reference to one tensor of a call is read as all tensors of the call.
* **C70** (Conversion leaves the source model alone): The code violates it: C70_source_renamed. Proved for transformers that replace every layer of the source; flattening keeps the names if and only if no two calls are of layers with the same name (C70_flatten_keeps_names_iff_partial).
* **C73** (Predictions of models with several outputs): Violated by the code: C73_outputs_mixed is a counterexample; proved when the dataset fits in one batch; C73_result_partial is exactly what is returned otherwise.
* **C75** (The bits reported for a tensor describe its values): Violated by the code: C75_permute, C75_flatten_first (PFlatten with channels_first), C75_average_pool and C75_max_pool_mixed are counterexamples. Proved for HGQ layers, reshapes, concatenations, whole graphs of these, and max pooling over equal types. Exact conditions: C75_permute_iff (no position may move to one with another number of bits), C75_average_pool_iff (in each window no position has bits, or the window size is a power of two and only one has), C75_max_pool_unsigned_iff (in each window one type contains the others; sufficient for signed types too, C75_max_pool_dominated). C75_flatten_first_iff: the same for PFlatten with channels first.
* **C76** (Training-time BOPs are an upper bound of the exact BOPs): Proved with the exact-arithmetic weight bits; in float32 get_arr_bits can report more than the estimate (C32_float32_underestimates). With ranges recorded under earlier bitwidths it fails (C76_input_bits_stale_fails); behind a relu it holds for any ranges (C76_input_bits_relu), otherwise exactly under the condition of C76_input_bits_iff. C76_model_partial lifts it to whole models: the BOPs in the reported loss are at least the exact BOPs of the model. C76_calibrated_partial: so after trace_minmax over any data. C76_float32_partial: with float32 weight bits under the condition of C32_kernel_float32_iff; for whole models and after calibration in C76_model_float32_partial and C76_calibrated_float32_partial.
* **C77** (Training-time kernel bits with shared bitwidths): Violated by the code when a dimension with its own bitwidths (of size other than 1) precedes a shared one (C77_rows, C77_rows_rectangular). C77_iff: the estimate is right for all kernels exactly when this is not so and no dimension is listed twice.
* **C79** (Saving and loading a model keeps every layer's settings): Proved for all classes which settings survive; the code forgets epsilon, momentum, center, scale and others of the fused batch-norm layers (C79_bn_epsilon_lost, C79_bn_loads_iff), conv_op, do_adapt_kernel_bits, and get_config rewrites quantizers with negative bits.
* **C80** (A loaded model behaves as the saved one): Outputs proved. The recorded ranges are not saved, so conversion of a loaded model is refused until it is traced again (C80_conversion_refused); re-tracing on the same data restores ranges and proxy (C80_retrace_partial).
* **C81** (Interrupting training by saving and loading does not change the kernel bitwidths): Holds for all layers but HDenseBatchNorm, whose flag for the delayed adaption is set again by loading: the first training step after loading shifts the learned bitwidths (C81_fused_dense_readapts).
* **C82** (The activation a layer was given is the one its proxy computes): The code violates it: a callable named relu that is not tf.keras.activations.relu (tf.nn.relu) is accepted and applied by the layer but left out of the proxy (C82_foreign_relu). Proved for None, strings and the Keras functions, and for other callables exactly where the activation does nothing (C82_callable_iff).
* **C83** (Ranges recorded during training describe the quantized values): The code violates it: results below 64 units may be off by up to 2^-17 units (C83_differs: 2^-27 instead of 0), zero tensors then get bits (C83_wasted_bits), and with relu the derived type can be too small so that the proxy returns 0 instead of 1/32 (C83_relu_overflow). Proved: the bound, equality from 64 units on, and that without relu the type always contains the inference result.
* **C84** (The attention layer computes multi-head attention): Values, weights, permutation invariance and masking are proved in full. The code violates the rest: compute_output_shape announces value_dim*num_heads channels while size(v) channels are returned (C84_declared_shape), and with an unknown batch size the call raises (C84_needs_static_shapes).
* **C86** (The loss reported for a model is a number): The code violates it: while a range is unrecorded (fresh model, or after ResetMinMax) act_bw is inf, so each dense or convolution layer behind it adds inf or nan, and nan for the default beta=0 (C86_unrecorded, C86_after_reset). With recorded ranges the claim is proved (C86_finite_partial, C86_value).
* **C89** (Registering precisions does not change the proxy model): The code violates it: a saturating quantizer with more fractional bits than its input is shrunk by the registration and then saturates at another value (C89_registration_changes_output: 31/4 becomes 7). Proved for every graph whose layers fit the types of their inputs (PLay.Fits), which covers heterogeneous wrapping quantizers behind a type with more integer bits and, for homogeneous wrapping and saturating quantizers of at least one bit behind such a type, exactly the cases of C35_wrap_iff and C35_sat_iff (except signed types of negative width). Independence of the derived types from the history holds in every graph: C111_types.
* **C91** (Storing every layer in its registered type does not change the model's outputs): The code violates it: an unsigned and a signed layer, concatenated and quantized to a narrower wrapping type: the unsigned layer is registered with the quantizer's integer bits but without its sign bit and wraps in half the range (C91_wrapping_output_changes: -3 becomes 1). Proved for every graph with Fits (C89) whose consumers use the values in the ways listed in PGraph.DataPath (rounding TRN or RND, no sign-magnitude wrapping, signed wrapping only of signed values, stored types with at least one bit that resolve the range).
* **C92** (A calibrated, deployed model reproduces the model on the calibration data): The code violates it: two HQuantize layers of which the second rounds 7/8 up to 1, outside the type inferred for the first; registration drops the integer bit and the output 1 on the calibration sample becomes 0 (WRAP) or 1/2 (SAT) (C92_registration_changes_calibration). Proved: with Fits (C89) at every layer, in both modes, also for the data path with stored types; for the quantizers made from recorded ranges only a condition on fractional widths is needed (FPQ.Mild), in both modes, because the recorded ranges were reached by values of the upstream type (trace_attained, deploy_recorded); in WRAP mode registration then changes nothing on any input, in SAT mode it can outside the recorded ranges (C92_conservative_outside_changes). Missing: layers that do not fit.
* **C93** (Inference leaves the recorded ranges alone): False of the code in both directions: after an interrupted calibration or no_bops_computation=True layers go on recording (C93_interrupted), and a predict made then compiles a function that goes on recording even after later complete calibrations (C93_compiled_goes_on_recording); and a compiled predict made before never records (C93_compiled_does_not_record). Proved: in every history whose calibrations complete with the BOPs computation inference keeps the ranges, and a complete calibration followed by compile repairs any other history. For all histories, also with interrupted calibrations and no_bops_computation=True, C93_exact_keeps and C93_exact_records say which inferences record (Spec.recordingAfter) and what: the others keep all ranges. Missing: the property as stated, which the code violates.
* **C94** (Kernel bitwidths are adapted to the weights once): False of the code for HDenseBatchNorm and the fused convolutions under model.fit: the compiled training function adapts at every step (C94_every_fit_step), so the bitwidths of weights above a bound below 1 fall to the lower clip and all weights quantize to zero after enough steps (C94_bits_run_to_the_lower_clip, C94_weights_vanish); HBatchNormalization in contrast never adapts (C94_batchnorm_never_adapts). Proved: layers adapted at build time, layers configured not to adapt, and fused layers whose first training step is an eager call or that take only one compiled step. C94_exact gives the bitwidths of a fused layer after every history (adaptedActually), compiled training of any length included.
* **C95** (Generic functions dispatch alike on all supported Python versions): False for register(A | B, f) and for annotations with typing.Union, which the patch silently drops (C95_lost_registrations). Proved: all forms the package itself uses. Classes without virtual subclasses. C95_iff: exactly which forms of registration have the same outcome.
* **C96** (Importing HGQ gives standard output back): False for nested use, after which everything printed is lost for ever (C96_nested). Proved: any number of blocks that are not nested, with exceptions anywhere. C96_iff: for every program the streams are restored exactly if no block is entered inside another one.
* **C97** (Signature marks its input as being of a given type): False for arrays of a type other than int8 (C97_array_types). Proved: Python numbers and lists, stored as int8: transparent exactly on values of the type; saving and loading; a whole model behind a Signature. 
* **C100** (Calling layers at several places does not silently switch off the BOPs regularisation): Violated by the code: behind a reshape, pooling or concatenation layer called several times the AssertionError meant to forbid it is caught by the except clause of input_bw and the layer adds nothing to the loss (C100_behind_reused_passive, C100_behind_reused_concatenation). C100_exact: in a model that can be called this happens exactly behind the layers of Spec.SwitchedOff; every other layer adds what it adds when all layers are called once (C100_quantizers_partial is the case of quantizer and Signature layers called several times). trace_minmax raises or counts right (C100_trace_counts); behind a reused concatenation it does not raise.
* **C110** (A frozen layer does not change in training): Proved for all layers without batch normalisation, and for fused layers with momentum 1 or with center and scale switched off. The code violates it for other fused layers: trainable is not looked at, and every training pass moves the stored statistics (C110_fused_iff gives exactly when a pass changes nothing, C110_fused_changes that zeros always do, C110_fused_inference_changes a change of the inference output).
* **C112** (Registering a proxy model again writes the same types): The code violates it: a layer before a quantizer is registered with the format of the quantizer before that quantizer is shrunk, a second registration uses the shrunk one (C112_first_entries_differ: fixed<6,4,TRN,SAT>, then fixed<4,4,TRN,SAT>). Proved from the second registration on, for every history, and from the first one for models in which nothing is shrunk.
* **C114** (A deployed model with fused batch normalisation approximates the network that normalises in separate steps): Proved for fused layers with scale and a bias that is absent or 0. The code violates it otherwise: the bias is added after the scaling although the moving mean contains it (C114_bias_fails), and without scale the mean is divided by sqrt(1+epsilon) while the values are not (C114_no_scale_fails). C114_layer_iff: a layer with scale and a bias is batch normalisation exactly if, channel by channel, the bias is 0 or the factor gamma/sqrt(var+eps) is 1. C114_bias_added_late: for any bias and any center and scale the deployed model approximates the network that adds the bias after normalising (without scale: subtracts mean*rsqrt(1+eps)).
* **C115** (The ranges recorded in a training pass are those inference needs): Proved for deterministic quantizers and no dropout when the moving statistics are those of the batch, bn_beta is 0, and a layer has a bias exactly if it has center (and then scale). The code violates it otherwise: training ignores bn_beta (C115_beta_fails), normalises with the batch (C115_statistics_fail) and drops the bias without center (C115_no_center_fails). Dropout in a training pass makes the ranges too small as well (C115_dropout_fails).
* **C119** (A convolution reports the same BOPs in both data formats): The values agree (C119_same_values). The BOPs do not: post_build divides by prod(output_shape[1:-1]), which with channels first contains the filters and misses the last spatial dimension. C119_exact and C119_train give the factor (last dimension / number of filters), C119_iff says exactly when the two formats agree, C119_fails is a concrete layer.
<!-- findings:end -->

## What is modelled

Line ranges are in the comments of the definitions.

| file | modelled | not modelled |
|------|----------|--------------|
| `quantizer/quantizer.py` | `q_round` (all strategies; noise is an argument), `get_arr_bits`, `HGQ.__init__` checks, bitwidth shape and degeneracy, `init_minmax`, `minmax_reg_reset`, `__call__`/`forward` (training and inference, exact and float32, values and tangents), `bias_forward`, `get_bits`, `get_bits_exact`, `adapt_bw_bits`, `from_config` | variable placement and regularizer bookkeeping of Keras |
| `layers/base.py` | every method; `scale_grad` in `Dual`, input/output bit properties, `call` with its loss terms as BOPs, `get_config` | `tf.function` tracing, warnings |
| `layers/dense.py`, `layers/conv.py` | forward, `jit_forward`, bops (both kinds), `convolution_op` as tap lists for every kernel size, stride, dilation, `valid`/`same`, both data formats; `get_config` | `padding='causal'` (Keras refuses it for classes not derived from its `Conv1D`, so that branch is unreachable); how `parallel_factor` is chosen (its value enters the BOPs and the gradient scale) |
| `layers/batchnorm_base.py` | fused kernel/bias, training branch, `HBatchNormalization`, `adapt_fused_bn_kernel_bw_bits` and its flag, exact bops, the moving averages over training histories (Model/BNFit.lean), graphs with fused layers in training (Model/FusedNet.lean) | the reductions of Keras' base class (its mean and variance of a batch are the specification) |
| `layers/misc.py`, `layers/passive_layers.py` | all classes; pooling and reshapes as index maps; `PDropout` in training (Model/FusedNet.lean) | - |
| `layers/experimental/attn.py` | `call`, `compute_output_shape`, build arithmetic | debug prints, dropout (constructed, never applied by the code), initialisers |
| `bops/bops.py` | `FreeBOPs`, `ResetMinMax`, `CalibratedBOPs`, `trace_minmax` | progress bar |
| `proxy/fixed_point_quantizer.py` | every function | Keras layer base class |
| `proxy/convert.py` | `get_all_nodes`, `solve_dependencies`, `Namer`, `_get_out_tensor`, `apply_layer`, `convert_model`, `to_keras_layer`, `ProxyLayerXFormer`, `to_proxy_model`, `copy_fused_weights` | Keras' own layer cloning (`from_config`) is assumed to copy the settings listed by `get_config` |
| `proxy/precision_derivation.py` | every function: type rules per layer and as a recursion over whole graphs with the in-place shrinking (`Model/PrecGraph`), `merge_precision`, `get_config*`, quantizer search, `register_qconf`, size checks | dictionary keys of hls4ml beyond the types |
| `proxy/unary_lut.py` | construction, lookup, `xfr_to_unary_lut`, `get_config` and reloading | - |
| `proxy/plugins/qkeras.py` | all quantizer mappings, layer mapping | QKeras itself is a specification (`Spec/QKeras.lean`) |
| `utils/utils.py` | default configurations (heap of dicts), `apf_to_tuple`, `tuple_to_apf`, `warn` as no-op | - |
| `_patch.py`, `__init__.py` | the patched `register` on Python 3.10 and dispatch along the method resolution order (C95), the output silencer (C96) | virtual subclasses; `__version__` |

## Assumptions of the model

* TensorFlow, NumPy and Keras primitives behave as their mathematical counterparts on the modelled domain.
  Float32: round to nearest even, 24-bit mantissa; overflow and subnormals are outside the model
  of C57, C58, C78 and C98, and irrelevant for numbers in the normal range by C107; each
  operation is rounded on its own (no contraction to FMA by XLA).
* `np.log2` returns the correctly rounded value; its floor/ceil equals the exact one except where a theorem
  models the float32 result explicitly (C31, C32).
* int8 bit counts stay within the limits of C102 (with the default clip all counts lie in [-56, 56]). Other theorems than C102 use integers.
* Python's recursion limit is not reached by deeply nested models.
* Side effects at `tf.function` trace time are modelled where they matter for the recorded ranges (C93) and the bitwidth
  adaption (C94). Elsewhere they happen on each call, as in eager mode.
* Keras saves and restores exactly the variables listed by the layer, and rebuilds layers by `from_config(get_config())`.
* Activation strings are looked up in lower case, as written in the repository's tests.
* In the heap model of configurations an unset variable reads as `None`.

## Trusted base

* Lean 4.33.0's kernel. Every theorem's axioms are listed in `AXIOMS.md`
  (regenerated by `tools/mk_axioms.py` from `#print axioms`): a subset of `propext`, `Classical.choice`, `Quot.sound`.
  No axiom is declared in `lean/Verif`; no `sorry`, `native_decide` or `bv_decide` is used.
* Mathlib's definitions used in statements: `ℚ`, `ℝ`, `ℤ`, `Int.log`, `Int.floor`, zpow, `Finset.sum`, `List`, `WithBot`, `Real.exp`, `Real.logb`.
* The reading of the Python source into the model, as documented in each definition's comment, and the assumptions above.
