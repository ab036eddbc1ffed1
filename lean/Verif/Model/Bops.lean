import Verif.Model.Taps
import Verif.Model.Trace

/-!
Model of the exact bit operations (BOPs) returned by `trace_minmax`, and of the bit counts they are made of.

Sources: `/repo/src/HGQ/layers/base.py` lines 18-37 and 176-246, `dense.py` lines 74-80, `conv.py` lines 74-81 and
129-135, `batchnorm_base.py` lines 223-234, `passive_layers.py`. The sums are exact here; the code uses float32, which is
exact as long as the counts stay below 2^24.
-/

namespace HGQ

/-- `kernel_bw_exact`, base.py lines 176-180: bits of every quantized weight, sign not counted. `kernel` lists the fused
weights with their bitwidths. `fl`: rounding of the float addition inside `get_arr_bits` (`id` if exact). -/
def LinLayer.kernelBits (L : LinLayer) (fl : ℚ → ℚ) (nWeights : ℕ) : List ℤ :=
  (getBitsExactRef fl L.kq.strategy ((List.range nWeights).map fun j => (L.kernel j, L.kq.clip (L.kfbw j)))).map fun b => b.i + b.f

/-- `HLayerBase.act_bw_exact`, base.py lines 194-199 -/
def QSite.actBits (q : QSite) (posOnly : Bool) (s : QState) : Except String (List ℤ) := do
  let b ← s.getBitsExact (prodL q.qShape) posOnly
  return (List.range (prodL q.outShape)).map fun p => (b (q.elem p)).i + (b (q.elem p)).f + (b (q.elem p)).k

/-- `np.concatenate` / `tf.concat` of flat tensors along one axis: `outer` is the product of the dimensions before the axis,
`rests` the products of the remaining dimensions of every input.
layers/passive_layers.py lines 99, 106 and 110. -/
def concatFlat {α : Type} (outer : ℕ) (rests : List ℕ) (ins : List (List α)) : List α :=
  (List.range outer).flatMap fun o => (List.zip rests ins).flatMap fun ri => (ri.2.drop (o * ri.1)).take ri.1

/-- `tf.nn.max_pool` of flat tensors: `wins p` lists the positions of the window of output `p`.
layers/passive_layers.py lines 123, 128, 141 and 146. -/
def maxPool {α : Type} [LinearOrder α] [Zero α] (n : ℕ) (wins : ℕ → List ℕ) (x : List α) : List α :=
  (List.range n).map fun p => ((wins p).map fun i => x.getD i 0).foldr max (x.getD ((wins p).headD 0) 0)

/-- how a layer reports the bits of its outputs.
The definitions of `act_bw_exact`: layers/base.py lines 194-199, layers/passive_layers.py lines 26-30, 64-66, 108-110, 125-128, 143-146. -/
inductive BwRule
  /-- a layer with a quantizer, base.py lines 194-199; `posOnly` is `_relu_act` -/
  | layer (posOnly : Bool)
  /-- `PLayerBase.act_bw_exact`, passive_layers.py lines 26-30: `PReshape`, `PFlatten`, `PDropout`, `PPermute` -/
  | reshape
  /-- `PConcatenate.act_bw_exact`, passive_layers.py lines 108-110 -/
  | concat (outer : ℕ) (rests : List ℕ)
  /-- `PPool*.act_bw_exact`, passive_layers.py lines 125-128 and 143-146 (maximum, also for average pooling) -/
  | pool (n : ℕ) (wins : ℕ → List ℕ)
  /-- `Signature.act_bw_exact`, passive_layers.py lines 64-66 -/
  | signature (bits : List ℤ)

/-- the only input of a layer: `last_layer`, base.py lines 20-24, preceded by the check of `input_bw_exact`,
base.py lines 34-37. `calls`: how often the layer is called. -/
def lastBits (calls : ℕ) (env : List (Except String (List ℤ))) (ins : List ℕ) : Except String (List ℤ) :=
  if 1 < calls then .error "Layer is reused. This is not allowed."
  else match ins with
    | [i] => env.getD i (.error "no such layer")
    | _ => .error "input_container is only available for layers with a single input."

/-- `layer.act_bw_exact` of one layer.
layers/base.py lines 194-199, layers/passive_layers.py lines 26-30, 64-66, 108-110, 125-128, 143-146. -/
def actBitsOf (nd : Node) (rule : BwRule) (calls : ℕ) (s : QState) (env : List (Except String (List ℤ)))
    (ins : List ℕ) : Except String (List ℤ) :=
  match rule with
  | .layer posOnly => match nd.site with
    | some q => q.actBits posOnly s
    | none => .error "not an HGQ layer"
  | .reshape => lastBits calls env ins
  | .concat outer rests => do
    let bs ← ins.mapM fun i => env.getD i (.error "no such layer")
    return concatFlat outer rests bs
  | .pool n wins => do return maxPool n wins (← lastBits calls env ins)
  | .signature bits => .ok bits

/-- `act_bw_exact` of all tensors, the model inputs first (an `InputLayer` has none).
`input_bw_exact`, layers/base.py lines 34-37, follows the inbound layers. -/
def actBitsEnv : Net → List BwRule → List ℕ → List LState → List (Except String (List ℤ)) → List (Except String (List ℤ))
  | (nd, ins) :: net, r :: rs, c :: cs, s :: ss, env =>
    actBitsEnv net rs cs ss (env ++ [actBitsOf nd r c s.q env ins])
  | _, _, _, _, env => env

/-- sum of input bits times weight bits over all multiplications: `np.sum(np.matmul(input_bw, kernel_bw))`, dense.py
line 78, and `tf.reduce_sum(self.convolution_op(input_bw, kernel_bw))`, conv.py line 133 -/
def LinLayer.mulBits (L : LinLayer) (inBits kBits : List ℤ) : ℤ :=
  ((List.range (prodL L.outShape)).map fun p =>
    ((L.taps p).map fun ij => inBits.getD ij.1 0 * kBits.getD ij.2 0).sum).sum

/-- what `compute_exact_bops` of a layer needs besides its state.
layers/base.py lines 242-246, layers/dense.py lines 74-80, layers/conv.py lines 129-135. -/
inductive BopsRule
  /-- `HDense`, dense.py lines 74-80 -/
  | dense (nWeights : ℕ)
  /-- `HConv`, conv.py lines 129-135 -/
  | conv (nWeights : ℕ) (parallelFactor : ℕ)
  /-- `HLayerBase`, base.py lines 242-246 -/
  | none

/-- `compute_exact_bops` of a layer; `inBits` is `input_bw_exact`. `total_channels`, conv.py line 79, is the product of the
output dimensions without batch and last dimension. -/
def Node.exactBops (nd : Node) (rule : BopsRule) (fl : ℚ → ℚ) (inBits : Except String (List ℤ)) : Except String ℚ :=
  match rule, nd with
  | .dense n, .linear L => do return L.mulBits (← inBits) (L.kernelBits fl n)
  | .conv n pf, .linear L => do
    return ((L.mulBits (← inBits) (L.kernelBits fl n) : ℚ) * pf) / prodL L.outShape.dropLast
  | _, _ => .ok 0

/-- `kernel_bw`, base.py lines 160-174, used during training: `relu(int_bits + fp_bits)`, for kernels with a bitwidth for every
weight (no `skip_dims`) -/
def LinLayer.kernelBitsTrain (L : LinLayer) (nWeights : ℕ) : List ℤ :=
  (List.range nWeights).map fun j =>
    let (i, f, _) := bitsApproxRef (L.qkernel j) (L.kq.clip (L.kfbw j))
    reluBits i f

/-- `act_bw`, base.py lines 183-192 -/
def QSite.actBitsTrain (q : QSite) (posOnly : Bool) (s : QState) : List ℤ :=
  (List.range (prodL q.outShape)).map fun p =>
    actBw ((s.mn (q.elem p)).untopD 0) ((s.mx (q.elem p)).unbotD 0) (s.fbw (q.elem p)) posOnly

/-- the variable `bops` assigned by every call of the layer: dense.py lines 51-55, conv.py lines 105-110. `inBw` is
`input_bw`. -/
def Node.trainBops (nd : Node) (rule : BopsRule) (inBw : List ℤ) : ℚ :=
  match rule, nd with
  | .dense n, .linear L => L.mulBits inBw (L.kernelBitsTrain n)
  | .conv n pf, .linear L => (L.mulBits inBw (L.kernelBitsTrain n) : ℚ) * pf / prodL L.outShape.dropLast
  | _, _ => 0

/-- bits and BOPs of a model: the rules of all its layers.
The loop over layers at bops/bops.py lines 115-120 with layers/base.py lines 194-199 and 242-246. -/
structure BopsModel where
  nInputs : ℕ
  bw : List BwRule
  bops : List BopsRule
  calls : List ℕ

/-- `compute_exact_bops` of layer `i` of a model.
bops/bops.py line 119; layers/dense.py lines 74-80, layers/conv.py lines 129-135. -/
def Net.exactBops (net : Net) (m : BopsModel) (fl : ℚ → ℚ) (i : ℕ) (ss : List LState) : Except String ℚ :=
  match net[i]?, m.bops[i]?, m.calls[i]? with
  | some (nd, ins), some r, some c =>
    nd.exactBops r fl (lastBits c (actBitsEnv net m.bw m.calls ss
      (List.replicate m.nInputs (.error "'InputLayer' object has no attribute 'act_bw_exact'"))) ins)
  | _, _, _ => .error "no such layer"

/-- `HBatchNormalization.compute_exact_bops`, batchnorm_base.py lines 223-234: the sum over all positions of input bits
times the bits of the scale of the channel -/
def bnExactBops (inBits scaleBits : List ℤ) (chan : ℕ → ℕ) : ℤ :=
  ((List.range inBits.length).map fun p => inBits.getD p 0 * scaleBits.getD (chan p) 0).sum

end HGQ
