import Mathlib.Data.Rat.Floor
import Mathlib.Data.Rat.Cast.Order

/-!
Specification: the values of the HLS types `ap_fixed<width, int>` / `ap_ufixed<width, int>`.
Independent of the model. A value is a bit pattern of `width` bits, read in two's complement
(signed) or as a natural number (unsigned), scaled by `2^(int - width)`.
-/

namespace Spec

/-- numeric reading of a bit pattern -/
def readBits (signed : Bool) {w : ℕ} (v : BitVec w) : ℤ :=
  if signed then v.toInt else (v.toNat : ℤ)

/-- `y` is a value of `ap_fixed<w, i>` (`signed`) / `ap_ufixed<w, i>` (not `signed`). -/
def IsApFixed (signed : Bool) (w : ℕ) (i : ℤ) (y : ℚ) : Prop :=
  ∃ v : BitVec w, y = (readBits signed v : ℚ) * (2 : ℚ) ^ (i - w)

/-- the conversion performed by hardware that simply drops high bits: keep the low `w` bits of
the (infinitely sign-extended) integer `n`, then read them. -/
def truncateBits (signed : Bool) (w : ℕ) (n : ℤ) : ℤ :=
  readBits signed (BitVec.ofInt w n)

/-- `n` is a nearest integer to `x`. -/
def IsNearest (x : ℚ) (n : ℤ) : Prop := ∀ m : ℤ, |x - n| ≤ |x - m|

/-- `x` lies exactly half way between two integers. -/
def IsTie (x : ℚ) : Prop := ∃ m : ℤ, x = m + 1 / 2

end Spec

namespace Spec

/-- The same value set in the "kif" notation used throughout HGQ: `k` = 1 if signed else 0, `i` integer
bits *without* the sign, `f` fractional bits. `y` is a multiple of `2^-f` in `[-k*2^i, 2^i)`.
`Verif.Props.FixedPoint.spec_kif_iff_apfixed` proves the two specifications equivalent. -/
def IsKif (k i f : ℤ) (y : ℚ) : Prop :=
  (∃ n : ℤ, y = n * (2 : ℚ) ^ (-f)) ∧ -(k * (2 : ℚ) ^ i) ≤ y ∧ y < (2 : ℚ) ^ i

end Spec
