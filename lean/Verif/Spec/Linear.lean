import Mathlib.Algebra.BigOperators.Group.Finset.Basic
import Mathlib.Algebra.BigOperators.Ring.Finset

/-!
Textbook matrix product and convolution on flat row-major tensors, independent of the model.
-/

namespace Spec
open Finset

/-- a sequence of length `n` extended by zeros on both sides -/
def padded {R : Type} [Zero R] (n : ℕ) (x : ℕ → R) (i : ℤ) : R := if 0 ≤ i ∧ i < n then x i.toNat else 0

/-- entry `(r, c)` of the product of `x`, rows of length `cin`, and the `cin × cout` matrix `k` -/
def matmul {R : Type} [Semiring R] (cin cout : ℕ) (x k : ℕ → R) (r c : ℕ) : R :=
  ∑ j ∈ range cin, x (r * cin + j) * k (j * cout + c)

/-- 1-D cross-correlation at output `o`, channel `c`: input of `w` positions and `groups * cin` channels, kernel
`kw × cin × cout`, stride `s`, dilation `d`, `pad` zeros in front; the output channels are divided evenly over the groups and
read only the input channels of their group -/
def conv1 {R : Type} [Semiring R] (w cin groups kw cout s d pad : ℕ) (x k : ℕ → R) (o c : ℕ) : R :=
  ∑ j ∈ range kw, ∑ ci ∈ range cin,
    padded w (fun i => x (i * (groups * cin) + (c / (cout / groups) * cin + ci))) (o * s + j * d - pad) *
      k ((j * cin + ci) * cout + c)

/-- 2-D cross-correlation at output `(o, o')`, channel `c` -/
def conv2 {R : Type} [Semiring R] (h w cin groups kh kw cout s s' d d' pad pad' : ℕ) (x k : ℕ → R) (o o' c : ℕ) : R :=
  ∑ j ∈ range kh, ∑ j' ∈ range kw, ∑ ci ∈ range cin,
    padded h (fun i => padded w (fun i' => x ((i * w + i') * (groups * cin) + (c / (cout / groups) * cin + ci)))
      (o' * s' + j' * d' - pad')) (o * s + j * d - pad) * k (((j * kw + j') * cin + ci) * cout + c)

end Spec
