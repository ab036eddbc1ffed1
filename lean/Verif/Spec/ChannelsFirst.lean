import Mathlib.Data.List.Basic
import Mathlib.Algebra.Group.Nat.Defs

/-! The two layouts of a tensor with `n` positions and `ch` channels. -/

namespace Spec

/-- the channels-first tensor with the entries of the channels-last tensor `l` -/
def toFirst {R : Type} [Zero R] (n ch : ℕ) (l : List R) : List R :=
  (List.range (ch * n)).map fun q => l.getD (q % n * ch + q / n) 0

end Spec
