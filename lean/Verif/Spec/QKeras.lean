import Verif.Spec.ApFixed

/-!
Specification: the quantizers of QKeras 0.9 (`qkeras/quantizers.py`), a library that is not part of `/repo`. Written from the
documented definitions, independent of the model.
-/

namespace Spec

/-- `n` is `x` rounded to the nearest integer, ties to even (`tf.round`) -/
def IsRoundEven (x : ℚ) (n : ℤ) : Prop := IsNearest x n ∧ (IsTie x → Even n)

/-- `y = quantized_bits(bits, integer, symmetric, keep_negative, alpha=1)(x)`: with `bits - keep_negative` magnitude bits, `m` values per
unit of the range 2^integer, the rounded value is clipped to [-1 + symmetric/m, 1 - 1/m] (or [0, 1 - 1/m]); without magnitude bits
the quantizer is the sign. -/
def QuantizedBits (bits integer : ℤ) (keepNegative symmetric : Bool) (x y : ℚ) : Prop :=
  let k : ℚ := if keepNegative then 1 else 0
  let sym : ℚ := if symmetric then 1 else 0
  let unsignedBits := bits - (if keepNegative then 1 else 0)
  if 0 < unsignedBits then
    let m := (2 : ℚ) ^ unsignedBits
    let mi := (2 : ℚ) ^ integer
    ∃ n : ℤ, IsRoundEven (x * m / mi) n ∧ y = mi * min (max (n / m) (k * (-1 + sym / m))) (1 - 1 / m)
  else
    let s : ℚ := if 0 ≤ x then 1 else -1
    y = if keepNegative then s else (s + 1) / 2

/-- `y = quantized_relu(bits, integer)(x)` (no sigmoid, no negative slope) -/
def QuantizedRelu (bits integer : ℤ) (x y : ℚ) : Prop :=
  let m := (2 : ℚ) ^ bits
  let mi := (2 : ℚ) ^ integer
  ∃ n : ℤ, IsRoundEven (x * m / mi) n ∧ y = mi * min (max (n / m) 0) (1 - 1 / m)

/-- `binary(alpha=a)(x)`: `±a` -/
def qkBinary (a x : ℚ) : ℚ := if 0 ≤ x then a else -a

end Spec
