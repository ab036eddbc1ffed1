import Mathlib.Analysis.SpecialFunctions.Exp
import Mathlib.Analysis.SpecialFunctions.Sqrt

/-!
Textbook multi-head attention on matrices `row → column → ℝ`, independent of the model.
-/

namespace Spec
open Finset

/-- row `i`, column `c` of `x W + b`, `x` with `din` columns -/
noncomputable def proj (din : ℕ) (W : ℕ → ℕ → ℝ) (b : ℕ → ℝ) (x : ℕ → ℕ → ℝ) (i c : ℕ) : ℝ := ∑ e ∈ range din, x i e * W e c + b c

/-- softmax of the `n` numbers `s 0 .. s (n-1)`, entry `j` -/
noncomputable def softmax (n : ℕ) (s : ℕ → ℝ) (j : ℕ) : ℝ := Real.exp (s j) / ∑ i ∈ range n, Real.exp (s i)

/-- scaled dot-product weights of query `i` over `nk` keys; `mask` is added to the scores -/
noncomputable def attnWeight (nk D : ℕ) (Q K : ℕ → ℕ → ℝ) (mask : ℕ → ℕ → ℝ) (i : ℕ) : ℕ → ℝ :=
  softmax nk fun j => (∑ d ∈ range D, Q i d * K j d) / √D + mask i j

/-- the weighted average of the values -/
noncomputable def attention (nk D : ℕ) (Q K V : ℕ → ℕ → ℝ) (mask : ℕ → ℕ → ℝ) (i e : ℕ) : ℝ :=
  ∑ j ∈ range nk, attnWeight nk D Q K mask i j * V j e

/-- columns `h * D .. (h + 1) * D - 1` -/
def block (D h : ℕ) (X : ℕ → ℕ → ℝ) (i d : ℕ) : ℝ := X i (h * D + d)

/-- `H` heads side by side, then a linear map to the output -/
noncomputable def multiHead (H nk D DV : ℕ) (Q K V : ℕ → ℕ → ℝ) (mask : ℕ → ℕ → ℝ) (Wo : ℕ → ℕ → ℝ) (bo : ℕ → ℝ) (i c : ℕ) : ℝ :=
  ∑ h ∈ range H, ∑ e ∈ range DV, attention nk D (block D h Q) (block D h K) (block DV h V) mask i e * Wo (h * DV + e) c + bo c

end Spec
