import Verif.Model.Shape
import Verif.Model.Quantizer

/-!
Quantizers with shared bitwidths (`skip_dims`): shape of the bitwidth tensor, recording of minima and maxima, and the estimate of
the bits of a kernel, for tensors of any rank.

Sources: `/repo/src/HGQ/quantizer/quantizer.py` lines 81-109, 145-179, 211-241, `/repo/src/HGQ/layers/base.py` lines 160-174.
A tensor is a shape and a function of multi-indices. Broadcasting is that of numpy and TensorFlow (shapes aligned at the right).
-/

namespace HGQ

/-- a dense tensor; only the values at `indices shape` count.
The tensors of quantizer/quantizer.py lines 145-209. -/
structure Tensor (α : Type) where
  shape : List ℕ
  get : List ℕ → α

/-- all multi-indices of a shape, in row-major order.
The tensors of quantizer/quantizer.py lines 145-209. -/
def indices : List ℕ → List (List ℕ)
  | [] => [[]]
  | n :: s => (List.range n).flatMap fun i => (indices s).map (i :: ·)

/-- a Python index `d` into a sequence of length `n`; negative ones count from the end.
quantizer/quantizer.py lines 100-101. -/
def pyIndex (n : ℕ) (d : ℤ) : Option ℕ :=
  if 0 ≤ d then (if d < n then some d.toNat else none)
  else if -(n : ℤ) ≤ d then some (d + n).toNat else none

/-- the parameter `skip_dims`. quantizer/quantizer.py lines 63 and 83-95. -/
inductive SkipDims
  | none
  | dims (l : List ℤ)
  | mode (s : String)
  deriving DecidableEq, Repr

/-- the named modes, quantizer.py lines 83-95; the result is the new value of `skip_dims` (empty: no sharing) -/
def SkipDims.resolve (rank : ℕ) : SkipDims → Except String (List ℤ)
  | .none => .ok []
  | .dims l => .ok l
  | .mode "all" => .ok ((List.range rank).map Int.ofNat)
  | .mode "batch" => .ok [0]
  | .mode "none" => .ok []
  | .mode "except_last" => .ok ((List.range (rank - 1)).map Int.ofNat)
  | .mode "except_1st" => .ok (0 :: (List.range' 2 (rank - 2)).map Int.ofNat)
  | .mode _ => .error "ValueError"

/-- the loop of `_compute_bw_shape_and_degeneracy`, quantizer.py lines 96-102; unknown dimensions are `none` -/
def bwLoop (s : List (Option ℕ)) (deg : ℕ) : List ℤ → Except String (List (Option ℕ) × ℕ)
  | [] => .ok (s, deg)
  | d :: ds => match pyIndex s.length d with
    | none => .error "IndexError"
    | some i => bwLoop (s.set i (some 1)) (deg * ((s.getD i none).getD 1)) ds

/-- `_compute_bw_shape_and_degeneracy`, quantizer.py lines 81-102 -/
def bwShape (s : List (Option ℕ)) (skip : SkipDims) : Except String (List (Option ℕ) × ℕ) := do
  bwLoop s 1 (← skip.resolve s.length)

/-- the axes of a TensorFlow reduction as a mask over the dimensions; invalid and repeated axes are refused.
quantizer/quantizer.py lines 171-172, 191, 230-231, 280. -/
def axisMask (rank : ℕ) (dims : List ℤ) : Except String (List Bool) :=
  match dims.mapM (pyIndex rank) with
  | none => .error "InvalidArgumentError"
  | some l => if l.Nodup then .ok ((List.range rank).map fun i => decide (i ∈ l)) else .error "InvalidArgumentError"

/-- the entries at dimensions that are not reduced. quantizer/quantizer.py lines 171-172, 191. -/
def keepDims {α : Type} : List Bool → List α → List α
  | true :: m, _ :: l => keepDims m l
  | false :: m, a :: l => a :: keepDims m l
  | _, _ => []

/-- `tf.reduce_min` / `tf.reduce_max` (as `op`, with the value `unit` of the empty reduction) over the masked axes,
`keepdims=False`. quantizer/quantizer.py lines 171-172, 191, 230-231. -/
def Tensor.reduce {α : Type} (op : α → α → α) (unit : α) (mask : List Bool) (t : Tensor α) : Tensor α :=
  ⟨keepDims mask t.shape, fun j => (((indices t.shape).filter fun i => decide (keepDims mask i = j)).map t.get).foldr op unit⟩

/-- a reduction over `skip_dims`, quantizer.py lines 172-175 and 227-229: nothing is reduced when no dimension is listed -/
def Tensor.reduceDims {α : Type} (op : α → α → α) (unit : α) (dims : List ℤ) (t : Tensor α) : Except String (Tensor α) :=
  if dims = [] then .ok t
  else match axisMask t.shape.length dims with
    | .error e => .error e
    | .ok m => .ok (t.reduce op unit m)

/-- a shape padded with ones on the left. Broadcasting at quantizer/quantizer.py lines 160, 176-177. -/
def padOnes (n : ℕ) (s : List ℕ) : List ℕ := List.replicate (n - s.length) 1 ++ s

/-- broadcasting of one dimension. Broadcasting at quantizer/quantizer.py lines 160, 176-177. -/
def bcDim (x y : ℕ) : Option ℕ := if x = y then some x else if y = 1 then some x else if x = 1 then some y else none

/-- broadcasting of two shapes. Broadcasting at quantizer/quantizer.py lines 160, 176-177. -/
def bcShape (a b : List ℕ) : Option (List ℕ) :=
  let n := max a.length b.length
  (List.zip (padOnes n a) (padOnes n b)).mapM fun xy => bcDim xy.1 xy.2

/-- the entry of a tensor used at index `i` of the result of a broadcast.
Broadcasting at quantizer/quantizer.py lines 160, 176-177. -/
def Tensor.bget {α : Type} (t : Tensor α) (i : List ℕ) : α := t.get (bcastIdx t.shape (i.drop (i.length - t.shape.length)))

/-- an element-wise operation with broadcasting. quantizer/quantizer.py lines 160, 176-177. -/
def Tensor.map2 {α β γ : Type} (f : α → β → γ) (a : Tensor α) (b : Tensor β) : Except String (Tensor γ) :=
  match bcShape a.shape b.shape with
  | none => .error "InvalidArgumentError: Incompatible shapes"
  | some s => .ok ⟨s, fun i => f (a.bget i) (b.bget i)⟩

/-- `tf.broadcast_to(t, shape)`. layers/base.py lines 167, 192, 230. -/
def Tensor.broadcastTo {α : Type} (t : Tensor α) (s : List ℕ) : Except String (Tensor α) :=
  if bcShape t.shape s = some s then .ok ⟨s, t.bget⟩ else .error "InvalidArgumentError"

/-- `variable.assign(t)`: the shapes must agree.
quantizer/quantizer.py lines 134-135, 142, 176-177, 281. -/
def assignVar {α : Type} (var t : Tensor α) : Except String (Tensor α) :=
  if t.shape = var.shape then .ok t else .error "ValueError: Cannot assign value to variable: Shape mismatch"

/-- the update of one record (`_min` with `min`, `_max` with `max`) by a batch `xq` of quantized values, quantizer.py lines 168-177;
`dims` is `skip_dims` after `_compute_bw_shape_and_degeneracy` -/
def recordUpdate {α : Type} (op : α → α → α) (unit : α) (dims : List ℤ) (xq var : Tensor α) : Except String (Tensor α) := do
  let red ← xq.reduceDims op unit dims
  assignVar var (← red.map2 op var)

/-- `get_bits(ref, quantized=True)` and `_kernel_bw`, quantizer.py lines 219-231, base.py lines 168-174: `qk` the quantized kernel,
`fbw` its bitwidths -/
def kernelBwShared (dims : List ℤ) (qk : Tensor ℚ) (fbw : Tensor ℚ) : Except String (Tensor ℤ) := do
  let ib : Tensor (WithBot ℤ) := ⟨qk.shape, fun i => (bitsApproxRef (qk.get i) 0).1⟩
  let ib ← ib.reduceDims max ⊥ dims
  let bw ← ib.map2 (fun i f => reluBits i (tfRound f)) fbw
  bw.broadcastTo qk.shape

end HGQ
