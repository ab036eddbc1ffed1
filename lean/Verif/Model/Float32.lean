import Verif.Model.Num
import Mathlib.Data.Int.Log

/-!
IEEE-754 binary32 arithmetic on finite values: every operation is the exact operation followed by a rounding. `fl32` has no limits on
the exponent; `ieee32` and `ftz32` are two treatments of results below the normal range. TensorFlow/NumPy default dtype of all tensors
in `/repo/src/HGQ`.
-/

namespace HGQ

/-- round to 24 significant bits, ties to even.
The rounding of every float32 operation, e.g. quantizer/quantizer.py lines 160-168 and proxy/fixed_point_quantizer.py lines 118-129. -/
def fl32 (x : ℚ) : ℚ :=
  if x = 0 then 0
  else
    let e := Int.log 2 |x| - 23
    tfRound (x * p2 (-e)) * p2 e

/-- with subnormal numbers: below `2^-126` results are multiples of `2^-149`.
The rounding of every float32 operation, e.g. quantizer/quantizer.py lines 160-168. -/
def ieee32 (x : ℚ) : ℚ := if |x| < p2 (-126) then tfRound (x * p2 149) * p2 (-149) else fl32 x

/-- with results below `2^-126` replaced by 0, the default of TensorFlow's CPU and XLA kernels.
The rounding of every float32 operation, e.g. quantizer/quantizer.py lines 160-168. -/
def ftz32 (x : ℚ) : ℚ := if |fl32 x| < p2 (-126) then 0 else fl32 x

end HGQ
