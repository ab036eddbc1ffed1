import Mathlib.Data.Rat.Defs
import Mathlib.Algebra.Order.Field.Rat
import Mathlib.Algebra.Order.Group.Unbundled.Abs

/-!
Specification: finite IEEE-754 binary32 numbers, without limits on the exponent, rounding to the nearest of them, and arithmetic of
devices which differ in the treatment of subnormal numbers and overflow.
-/

/-- `x` has a significand of at most 24 bits -/
def Spec.IsFloat32 (x : ℚ) : Prop := ∃ m e : ℤ, |m| < 2 ^ 24 ∧ x = m * (2 : ℚ) ^ e

/-- `y` is the number with 24 significant bits nearest to `x`; if another one is as near, `y` has an even significand, that is,
23 bits are enough for it. -/
structure Spec.RoundsTo (x y : ℚ) : Prop where
  float : Spec.IsFloat32 y
  nearest : ∀ z, Spec.IsFloat32 z → |y - x| ≤ |z - x|
  even : ∀ z, Spec.IsFloat32 z → z ≠ y → |z - x| = |y - x| → ∃ m e : ℤ, |m| < 2 ^ 23 ∧ y = m * (2 : ℚ) ^ e

/-- `fl` is the rounding of an IEEE-754 binary32 device as far as normal numbers are concerned: 0 stays 0, and numbers in the normal
range are rounded to the nearest. Anything may happen to other numbers: results may be subnormal, flushed to zero, or overflow. -/
structure Spec.Conforming (fl : ℚ → ℚ) : Prop where
  zero : fl 0 = 0
  normal : ∀ x : ℚ, (2 : ℚ) ^ (-126 : ℤ) ≤ |x| → |x| < (2 : ℚ) ^ (127 : ℤ) → Spec.RoundsTo x (fl x)
