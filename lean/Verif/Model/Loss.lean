import Verif.Model.Bops

/-!
The loss term `beta * bops` every call of a dense or convolution layer adds, with the special values of floating point:
ranges that were never recorded (or were reset) are `inf` and `-inf`, and enter the loss through `act_bw`.

Sources: `/repo/src/HGQ/layers/base.py` lines 20-33 and 160-192, `dense.py` lines 48-59, `conv.py` lines 102-114,
`quantizer.py` lines 211-241, `passive_layers.py`. Finite numbers are exact.
-/

namespace HGQ

/-- a float: a finite number or a special value. The float32 tensors of layers/base.py lines 160-192. -/
inductive EF
  | fin (q : ℚ)
  | pinf
  | ninf
  | nan
  deriving DecidableEq, Repr

namespace EF

/-- IEEE 754 addition. `+`, layers/base.py lines 165, 187 and 189. -/
def add : EF → EF → EF
  | .nan, _ => .nan
  | _, .nan => .nan
  | .fin a, .fin b => .fin (a + b)
  | .pinf, .ninf => .nan
  | .ninf, .pinf => .nan
  | .pinf, _ => .pinf
  | _, .pinf => .pinf
  | .ninf, _ => .ninf
  | _, .ninf => .ninf

/-- infinity with the sign of `a`; `0 * inf` is `nan`.
Sign of the product at layers/dense.py line 57, layers/conv.py line 112. -/
def infOf (a : ℚ) : EF := if a = 0 then .nan else if 0 < a then .pinf else .ninf

/-- IEEE 754 multiplication.
`*` and the products in `tf.matmul`, layers/dense.py lines 55 and 57, layers/conv.py lines 109-112. -/
def mul : EF → EF → EF
  | .nan, _ => .nan
  | _, .nan => .nan
  | .fin a, .fin b => .fin (a * b)
  | .fin a, .pinf => infOf a
  | .fin a, .ninf => infOf (-a)
  | .pinf, .fin a => infOf a
  | .ninf, .fin a => infOf (-a)
  | .pinf, .pinf => .pinf
  | .ninf, .ninf => .pinf
  | .pinf, .ninf => .ninf
  | .ninf, .pinf => .ninf

/-- division by a finite positive number. layers/conv.py line 110. -/
def divPos (x : EF) (d : ℚ) : EF :=
  match x with
  | .fin a => .fin (a / d)
  | x => x

/-- `tf.nn.relu`. layers/base.py lines 165, 173, 190. -/
def relu : EF → EF
  | .fin a => .fin (max a 0)
  | .pinf => .pinf
  | .ninf => .fin 0
  | .nan => .nan

/-- `tf.abs`. quantizer/quantizer.py lines 227 and 238. -/
def abs : EF → EF
  | .fin a => .fin |a|
  | .nan => .nan
  | _ => .pinf

/-- `tf.maximum`. quantizer/quantizer.py lines 235 and 238. -/
def max2 : EF → EF → EF
  | .nan, _ => .nan
  | _, .nan => .nan
  | .pinf, _ => .pinf
  | _, .pinf => .pinf
  | .ninf, y => y
  | x, .ninf => x
  | .fin a, .fin b => .fin (max a b)

/-- `x < 0`. quantizer/quantizer.py lines 226 and 239. -/
def isNeg : EF → Bool
  | .fin a => decide (a < 0)
  | .ninf => true
  | _ => false

/-- `tf.floor(tf.math.log(x) / log2) + 1`, quantizer.py lines 228 and 240 (the logarithm is exact) -/
def topBit : EF → EF
  | .fin a => if a < 0 then .nan else if a = 0 then .ninf else .fin (Int.log 2 a + 1)
  | .pinf => .pinf
  | .ninf => .nan
  | .nan => .nan

/-- the variable `_min` (`inf` after a reset). quantizer/quantizer.py lines 134 and 176. -/
def ofMin : WithTop ℚ → EF
  | none => .pinf
  | some a => .fin a

/-- the variable `_max` (`-inf` after a reset). quantizer/quantizer.py lines 135 and 177. -/
def ofMax : WithBot ℚ → EF
  | none => .ninf
  | some a => .fin a

/-- `tf.reduce_sum`. layers/dense.py line 55, layers/conv.py line 109. -/
def sum (l : List EF) : EF := l.foldr add (.fin 0)

end EF

/-- `HGQ.get_bits` with `ref=None`, quantizer.py lines 219-241, one element: `(int_bits, fp_bits, kn)` -/
def getBitsE (mn : WithTop ℚ) (mx : WithBot ℚ) (fbw : ℚ) (posOnly : Bool) : EF × EF × EF :=
  let fp := EF.fin (tfRound fbw)
  if posOnly then
    ((EF.max2 (EF.ofMax mx) (.fin 0)).topBit, fp, .fin 0)
  else
    ((EF.max2 (EF.ofMin mn).abs (EF.ofMax mx).abs).topBit, fp, if (EF.ofMin mn).isNeg then .fin 1 else .fin 0)

/-- `HLayerBase.act_bw`, base.py lines 183-192, one element -/
def actBwE (mn : WithTop ℚ) (mx : WithBot ℚ) (fbw : ℚ) (relu : Bool) : EF :=
  let (i, f, kn) := getBitsE mn mx fbw relu
  let bw := i.add f
  (if !relu then bw.add kn else bw).relu

/-- `HLayerBase._kernel_bw`, base.py lines 168-174, one already quantized weight (no `skip_dims`) -/
def kernelBwE (w fbw : ℚ) : EF := (((EF.fin w).abs.topBit).add (.fin (tfRound fbw))).relu

/-- `_kernel_bw` of all weights. layers/base.py lines 169-175. -/
def LinLayer.kernelBwE (L : LinLayer) (nWeights : ℕ) : List EF :=
  (List.range nWeights).map fun j => HGQ.kernelBwE (L.qkernel j) (L.kq.clip (L.kfbw j))

/-- `act_bw` of a layer with a quantizer, broadcast to its output shape. layers/base.py lines 183-192. -/
def QSite.actBwE (q : QSite) (posOnly : Bool) (s : QState) : List EF :=
  (List.range (prodL q.outShape)).map fun p => HGQ.actBwE (s.mn (q.elem p)) (s.mx (q.elem p)) (s.fbw (q.elem p)) posOnly

/-- the `AssertionError` of layers/base.py line 28 and layers/passive_layers.py line 103 -/
def reusedMsg : String := "Layer is reused. This is not allowed."

/-- `self.input_bw`, base.py lines 26-32. `None` for a layer without exactly one input, and whenever the `AssertionError` is raised while
computing `act_bw` of the layer before: line 31 catches it. -/
def inputBw (calls : ℕ) (env : List (Except String (List EF))) (ins : List ℕ) : Except String (Option (List EF)) :=
  if 1 < calls then .error reusedMsg
  else match ins with
    | [i] => match env.getD i (.error "no such layer") with
      | .ok b => .ok (some b)
      | .error e => if e = reusedMsg then .ok none else .error e
    | _ => .ok none

/-- `self.input_bw` of a passive layer, where `None` cannot be reshaped or pooled. layers/base.py lines 26-32,
layers/passive_layers.py lines 23, 122-123 and 140-141. -/
def lastBw (calls : ℕ) (env : List (Except String (List EF))) (ins : List ℕ) : Except String (List EF) := do
  match ← inputBw calls env ins with
  | some b => return b
  | none => .error "None has no shape"

/-- `layer.act_bw` of a layer, passive_layers.py lines 19-23, 60-62, 94-99, 120-123, 138-141. Pooling uses `max_pool`. -/
def actBwOf (nd : Node) (rule : BwRule) (calls : ℕ) (s : QState) (env : List (Except String (List EF))) (ins : List ℕ) :
    Except String (List EF) :=
  match rule with
  | .layer posOnly => match nd.site with
    | some q => .ok (q.actBwE posOnly s)
    | none => .error "not an HGQ layer"
  | .reshape => lastBw calls env ins
  | .concat outer rests => do
    if 1 < calls then .error reusedMsg
    let bs ← ins.mapM fun i => env.getD i (.error "no such layer")
    return concatFlat outer rests bs
  | .pool n wins => do
    let x ← lastBw calls env ins
    return (List.range n).map fun p =>
      ((wins p).map fun i => x.getD i (.fin 0)).foldr EF.max2 (x.getD ((wins p).headD 0) (.fin 0))
  | .signature bits => .ok (bits.map fun (b : ℤ) => EF.fin b)

/-- `act_bw` of all tensors, the model inputs first (an `InputLayer` has none).
`input_bw`, layers/base.py lines 26-32, follows the inbound layers. -/
def actBwEnvE : Net → List BwRule → List ℕ → List LState → List (Except String (List EF)) → List (Except String (List EF))
  | (nd, ins) :: net, r :: rs, c :: cs, s :: ss, env => actBwEnvE net rs cs ss (env ++ [actBwOf nd r c s.q env ins])
  | _, _, _, _, env => env

/-- `tf.reduce_sum(tf.matmul(input_bw, kernel_bw))`, dense.py line 55, and the convolution of conv.py line 109 -/
def LinLayer.mulE (L : LinLayer) (inBw kBw : List EF) : EF :=
  EF.sum ((List.range (prodL L.outShape)).map fun p =>
    EF.sum ((L.taps p).map fun ij => (inBw.getD ij.1 (.fin 0)).mul (kBw.getD ij.2 (.fin 0))))

/-- the loss added by one call of a layer, dense.py lines 52-58, conv.py lines 106-113; layers without kernel add none -/
def Node.bopsLoss (nd : Node) (rule : BopsRule) (beta : ℚ) (inBw : List EF) : EF :=
  match rule, nd with
  | .dense n, .linear L => (L.mulE inBw (L.kernelBwE n)).mul (.fin beta)
  | .conv n pf, .linear L =>
    (((L.mulE inBw (L.kernelBwE n)).mul (.fin pf)).divPos (prodL L.outShape.dropLast)).mul (.fin beta)
  | _, _ => .fin 0

/-- the loss added by layer `i` of a model when the model is called with the layers in the states `ss`. (During a call with
`training=True`, or while tracing, the layers before layer `i` have recorded the batch already.).
layers/dense.py lines 52-58, layers/conv.py lines 106-113. -/
def Net.layerLoss (net : Net) (m : BopsModel) (beta : ℚ) (ss : List LState) (i : ℕ) : Except String EF :=
  match net[i]?, m.bops[i]?, m.calls[i]? with
  | some (nd, ins), some r, some c => do
    let env := actBwEnvE net m.bw m.calls ss
      (List.replicate m.nInputs (.error "'InputLayer' object has no attribute 'act_bw'"))
    match r with
    | .none => return .fin 0
    | r => match ← inputBw c env ins with
      | none => return .fin 0
      | some inBw => return nd.bopsLoss r beta inBw
  | _, _, _ => .error "no such layer"

/-- the loss reported by `model.evaluate` (and minimised by `fit`): the loss of the task plus all terms added by the layers;
`betas i` is the `beta` of layer `i`.
Keras adds the terms of `add_loss`, layers/dense.py line 58, layers/conv.py line 113. -/
def Net.evalLoss (net : Net) (m : BopsModel) (betas : ℕ → ℚ) (ss : List LState) (task : ℚ) : Except String EF := do
  let ls ← (List.range net.length).mapM fun i => net.layerLoss m (betas i) ss i
  return (EF.fin task).add (EF.sum ls)

end HGQ
