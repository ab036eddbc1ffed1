import Mathlib.Data.List.Basic
import Mathlib.Algebra.Order.Ring.Nat

/-!
Tensor shapes, row-major indexing and broadcasting, as used by quantizers.
A sample (one entry of the batch) of shape `sh` is a flat list of length `prodL sh`.
-/

namespace HGQ

/-- `np.prod(shape)`. layers/base.py lines 81-86, proxy/precision_derivation.py line 172. -/
def prodL : List ℕ → ℕ
  | [] => 1
  | d :: ds => d * prodL ds

/-- row-major multi-index of flat position `p`.
The indexing behind the broadcasting at quantizer/quantizer.py line 160. -/
def unravel : List ℕ → ℕ → List ℕ
  | [], _ => []
  | _ :: ds, p => p / prodL ds :: unravel ds (p % prodL ds)

/-- flat position of a multi-index.
The indexing behind the broadcasting at quantizer/quantizer.py line 160. -/
def ravel : List ℕ → List ℕ → ℕ
  | _ :: ds, i :: is => i * prodL ds + ravel ds is
  | _, _ => 0

/-- broadcasting: along dimensions of size 1 the index is 0.
The broadcasting at quantizer/quantizer.py line 160, layers/base.py lines 167, 192, 199, 230. -/
def bcastIdx : List ℕ → List ℕ → List ℕ
  | q :: qs, i :: is => (if q = 1 then 0 else i) :: bcastIdx qs is
  | _, _ => []

/-- element of a quantizer tensor of shape `qShape` used at flat position `p` of a sample of shape `outShape`
(broadcasting `fbw` against the sample, e.g. `x * scale` in quantizer.py line 160). -/
def elemOf (outShape qShape : List ℕ) (p : ℕ) : ℕ :=
  ravel qShape (bcastIdx qShape (unravel outShape p))

/-- `channel_loc`: -1 (last dimension) or 1 (first dimension after the batch dimension); base.py line 104,
conv.py line 72. -/
inductive ChLoc | first | last
  deriving DecidableEq, Repr

/-- entry of a per-sample shape or index at the channel location.
layers/base.py lines 83-86 and 222-227, quantizer/quantizer.py lines 184-189. -/
def atLoc : ChLoc → List ℕ → ℕ
  | .first, l => l.headD 0
  | .last, l => l.getLastD 0

/-- channel of flat position `p`.
layers/base.py lines 83-86 and 222-227, quantizer/quantizer.py lines 184-189. -/
def chanOf (outShape : List ℕ) (loc : ChLoc) (p : ℕ) : ℕ := atLoc loc (unravel outShape p)

/-- Quantizer elements contributing to channel `c` of `tf.reduce_max(self.fbw, axis=dims, keepdims=False)` broadcast
to the bias, quantizer.py lines 184-191 and base.py lines 221-229. -/
def redElems (qShape : List ℕ) (loc : ChLoc) (c : ℕ) : List ℕ :=
  (List.range (prodL qShape)).filter fun e =>
    decide (atLoc loc (unravel qShape e) = if atLoc loc qShape = 1 then 0 else c)

/-- `HLayerBase.can_bias_cover_rnd`, base.py lines 72-87. `qShapeFull` is `paq.fbw.shape` including the leading
batch dimension, `biasShape` is `None` if the layer has no bias. -/
def canBiasCoverRnd (biasShape : Option (List ℕ)) (qShapeFull : List ℕ) (loc : ChLoc) : Bool :=
  match biasShape with
  | none => false
  | some bs =>
    if bs.length ≠ 1 then false
    else if prodL qShapeFull = 1 then true
    else match loc with
      | .last => decide (prodL qShapeFull.dropLast = 1 ∧ bs = qShapeFull.drop (qShapeFull.length - 1))
      | .first => decide (prodL (qShapeFull.drop 1) = 1 ∧ bs = qShapeFull.take 1)

/-- `qShape` broadcasts against `outShape`: same rank, every dimension equal or 1 (what
`_compute_bw_shape_and_degeneracy` produces), all dimensions positive.
quantizer/quantizer.py lines 96-102. -/
def Compat : List ℕ → List ℕ → Prop
  | [], [] => True
  | o :: os, q :: qs => 0 < o ∧ (q = 1 ∨ q = o) ∧ Compat os qs
  | _, _ => False

/-- `Compat` (quantizer.py lines 96-102) can be checked by evaluation. -/
instance : ∀ a b, Decidable (Compat a b)
  | [], [] => isTrue trivial
  | o :: os, q :: qs =>
    have : Decidable (Compat os qs) := instDecidableCompat os qs
    inferInstanceAs (Decidable (0 < o ∧ (q = 1 ∨ q = o) ∧ Compat os qs))
  | [], _ :: _ => isFalse id
  | _ :: _, [] => isFalse id

end HGQ
