import Mathlib.Data.Int.Log
import Mathlib.Data.Rat.Floor

/-!
Numeric primitives shared by the model. TensorFlow / NumPy floats are modelled by `ℚ` with exact
arithmetic (rounding of float32 is studied separately in `Verif/Model/Float32.lean`).
-/

namespace HGQ

/-- `2.**n`, `tf.pow(two, n)` for an integer-valued exponent `n`.
quantizer/quantizer.py line 153, proxy/fixed_point_quantizer.py lines 55 and 124, proxy/precision_derivation.py line 59. -/
def p2 (n : ℤ) : ℚ := (2 : ℚ) ^ n

/-- `tf.floor` (as an integer; the code keeps the result in a float tensor).
quantizer/quantizer.py lines 25, 27, 35, proxy/fixed_point_quantizer.py lines 15-49. -/
def flr (x : ℚ) : ℤ := ⌊x⌋

/-- `tf.round`: round to nearest, ties to even.
quantizer/quantizer.py lines 153, 194, 219, proxy/fixed_point_quantizer.py line 26, proxy/unary_lut.py line 40. -/
def tfRound (x : ℚ) : ℤ :=
  let n := ⌊x⌋
  let r := x - n
  if r < 1 / 2 then n
  else if 1 / 2 < r then n + 1
  else if n % 2 = 0 then n else n + 1

/-- `K.sign` / `tf.sign`. proxy/fixed_point_quantizer.py lines 31, 37, 48. -/
def tfSign (x : ℚ) : ℚ := if 0 < x then 1 else if x < 0 then -1 else 0

/-- `tf.math.floormod(x, y)` for floats: `x - floor(x / y) * y`.
proxy/fixed_point_quantizer.py lines 82 and 91. -/
def floorMod (x y : ℚ) : ℚ := x - (⌊x / y⌋ : ℤ) * y

/-- `tf.clip_by_value(x, lo, hi)`: TensorFlow computes `maximum(minimum(x, hi), lo)`, so `lo` wins if `hi < lo`
(a quantizer with negative bits). proxy/fixed_point_quantizer.py lines 57 and 74, quantizer/quantizer.py line 142. -/
def clipByValue (x lo hi : ℚ) : ℚ := max (min x hi) lo

end HGQ
