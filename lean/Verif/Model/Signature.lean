import Verif.Model.FixedPoint

/-!
Model of `Signature`, `/repo/src/HGQ/layers/passive_layers.py` lines 33-78, and of its proxy, `/repo/src/HGQ/proxy/convert.py`
lines 295-297 and `/repo/src/HGQ/proxy/fixed_point_quantizer.py` lines 147-168.
-/

namespace HGQ.Sig

/-- data types of the width tensors, layers/passive_layers.py lines 38-53 -/
inductive DType | int8 | otherInt | float
  deriving DecidableEq, Repr

/-- an argument of `Signature(keep_negative, bits, int_bits)`: Python numbers (a single one, or a flattened nested list), or
something with a `shape` (an array or tensor), kept as it is. Widths are whole numbers.
passive_layers.py lines 36-46. -/
inductive Arg
  | py (isFloat : Bool) (vs : List ℤ)
  | arr (t : DType) (vs : List ℤ)
  deriving DecidableEq, Repr

/-- a width tensor, layers/passive_layers.py lines 38-53 -/
structure WTensor where
  dtype : DType
  vals : List ℤ
  deriving DecidableEq, Repr

/-- `if not hasattr(x, 'shape'): x = tf.constant(x, dtype=tf.int8)`, passive_layers.py lines 38-43: Python floats and numbers
outside the range of int8 are refused -/
def Arg.init : Arg → Except String WTensor
  | .py isFloat vs =>
    if isFloat then .error "Cannot convert float to int8"
    else if vs.all fun v => -128 ≤ v ∧ v ≤ 127 then .ok ⟨.int8, vs⟩ else .error "out of range for int8"
  | .arr t vs => .ok ⟨t, vs⟩

/-- `tf.broadcast_to(x, (1,) + input_shape[1:])`, passive_layers.py lines 51-53, on flattened tensors with `n` positions: a single
value, or one value for each position (partial broadcasting is left out) -/
def WTensor.broadcast (n : ℕ) (t : WTensor) : Except String WTensor :=
  match t.vals with
  | [v] => .ok ⟨t.dtype, List.replicate n v⟩
  | vs => if vs.length = n then .ok t else .error "Incompatible shapes"

/-- a built `Signature`. passive_layers.py lines 44-53. -/
structure Layer where
  k : WTensor
  b : WTensor
  i : WTensor
  deriving DecidableEq, Repr

/-- `Signature.__init__` and `build`, passive_layers.py lines 36-53 -/
def Layer.make (n : ℕ) (k b i : Arg) : Except String Layer := do
  let k ← k.init
  let b ← b.init
  let i ← i.init
  return ⟨← k.broadcast n, ← b.broadcast n, ← i.broadcast n⟩

/-- `Signature.call`, passive_layers.py lines 55-57 -/
def Layer.call (_ : Layer) (x : List ℚ) : List ℚ := x

/-- `x.numpy().tolist()`, passive_layers.py lines 75-77 -/
def WTensor.tolist (t : WTensor) : Arg := .py (t.dtype = .float) t.vals

/-- `from_config(get_config())` and `build`: what a saved and loaded model contains. passive_layers.py lines 36-53 and 72-78 -/
def Layer.reload (n : ℕ) (s : Layer) : Except String Layer := Layer.make n s.k.tolist s.b.tolist s.i.tolist

/-- the proxy layer, convert.py lines 295-297: `FixedPointQuantizer(keep_negative, bits, int_bits, 'TRN', SAT)`. Its
constructor stores the tensors in int8 variables (fixed_point_quantizer.py lines 165-167), and `tf.Variable(tensor,
dtype='int8')` refuses tensors of another type. -/
def Layer.proxy (s : Layer) : Except String (List KBI) :=
  if s.k.dtype = .int8 ∧ s.b.dtype = .int8 ∧ s.i.dtype = .int8 then
    .ok (List.zipWith (fun k bi => KBI.init k bi.1 bi.2) s.k.vals (s.b.vals.zip s.i.vals))
  else .error "Tensor conversion requested dtype int8"

/-- the proxy layer on a sample, fixed_point_quantizer.py lines 178-182 with rounding `TRN` -/
def applyProxy (qs : List KBI) (S : Sat) (x : List ℚ) : List ℚ := List.zipWith (fun q v => q.apply .TRN S v) qs x

end HGQ.Sig
