import Verif.Model.Quantizer

/-!
Extreme values of a fixed-point type with sign bit `k`, `i` integer and `f` fractional bits, and what they contribute through a weight.
-/

namespace Spec

open HGQ

/-- the largest value of a type with `i + f ≥ 0`: all bits but the sign set -/
def largest (t : KIF) : ℚ := (2 : ℚ) ^ t.i - (2 : ℚ) ^ (-t.f)

/-- the smallest value of a type with `i + f ≥ 0` -/
def smallest (t : KIF) : ℚ := -((t.k : ℚ) * (2 : ℚ) ^ t.i)

/-- what one input can contribute at most through the weight `w` -/
def highest (t : KIF) (w : ℚ) : ℚ := max (smallest t * w) (largest t * w)

/-- what one input contributes at least through the weight `w` -/
def lowest (t : KIF) (w : ℚ) : ℚ := min (smallest t * w) (largest t * w)

end Spec
