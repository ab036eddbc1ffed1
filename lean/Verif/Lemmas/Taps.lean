import Verif.Model.Taps
import Verif.Lemmas.Shape
import Verif.Spec.Linear
import Mathlib.Algebra.BigOperators.Group.Finset.Basic
import Mathlib.Algebra.BigOperators.Intervals
import Mathlib.Algebra.BigOperators.Ring.Finset

namespace HGQ
open Finset

theorem list_sum_range {R : Type} [AddCommMonoid R] (n : ℕ) (f : ℕ → R) :
    ((List.range n).map f).sum = ∑ i ∈ range n, f i := by
  simp [Finset.sum, Finset.range, Multiset.range]

theorem sum_range_mul {R : Type} [AddCommMonoid R] (f : ℕ → R) (a b : ℕ) :
    ∑ j ∈ range (a * b), f j = ∑ x ∈ range a, ∑ y ∈ range b, f (x * b + y) := by
  induction a with
  | zero => simp
  | succ a ih => rw [Nat.add_mul, one_mul, sum_range_add, ih, sum_range_succ]

/-- sum over the taps of one output -/
def tapSum {R : Type} [Semiring R] (taps : List (ℕ × ℕ)) (x k : ℕ → R) : R := (taps.map fun ij => x ij.1 * k ij.2).sum

theorem tapSum_flatMap {R : Type} [Semiring R] {α : Type} (l : List α) (f : α → List (ℕ × ℕ)) (x k : ℕ → R) :
    tapSum (l.flatMap f) x k = (l.map fun a => tapSum (f a) x k).sum := by
  unfold tapSum
  induction l with
  | nil => rfl
  | cons a l ih => simp [ih]

/-- matrix product -/
theorem dense_tapSum {R : Type} [Semiring R] (cin cout r c : ℕ) (hc : c < cout) (x k : ℕ → R) :
    tapSum (denseTaps cin cout (r * cout + c)) x k = ∑ j ∈ range cin, x (r * cin + j) * k (j * cout + c) := by
  have h1 : (r * cout + c) / cout = r := by
    rw [mul_comm, Nat.mul_add_div (by omega), Nat.div_eq_of_lt hc]; rfl
  have h2 : (r * cout + c) % cout = c := by
    rw [mul_comm, Nat.mul_add_mod, Nat.mod_eq_of_lt hc]
  unfold tapSum denseTaps
  rw [h1, h2, List.map_map, list_sum_range]
  rfl

/-- value of an input at kernel offset `j` of output `o` along one dimension, 0 in the padding -/
def ConvDim.pick {R : Type} [Zero R] (d : ConvDim) (o j : ℕ) (x : ℕ → R) : R :=
  if d.padLo ≤ o * d.stride + j * d.dilation ∧ o * d.stride + j * d.dilation - d.padLo < d.inp then
    x (o * d.stride + j * d.dilation - d.padLo) else 0

theorem src_eq (d : ConvDim) (o j : ℕ) : (d.src o j = some (o * d.stride + j * d.dilation - d.padLo) ∧
    (d.padLo ≤ o * d.stride + j * d.dilation ∧ o * d.stride + j * d.dilation - d.padLo < d.inp)) ∨
    (d.src o j = none ∧ ¬ (d.padLo ≤ o * d.stride + j * d.dilation ∧ o * d.stride + j * d.dilation - d.padLo < d.inp)) := by
  unfold ConvDim.src
  dsimp only
  split_ifs with h
  · exact .inl ⟨rfl, h⟩
  · exact .inr ⟨rfl, h⟩

theorem divmod_lt {a b n : ℕ} (hb : b < n) : (a * n + b) / n = a ∧ (a * n + b) % n = b := by
  constructor
  · rw [mul_comm, Nat.mul_add_div (by omega), Nat.div_eq_of_lt hb]; rfl
  · rw [mul_comm, Nat.mul_add_mod, Nat.mod_eq_of_lt hb]

/-- 1-D convolution -/
theorem conv1_tapSum {R : Type} [Semiring R] (d : ConvDim) (cinK cout groups o c : ℕ) (hc : c < cout) (ho : o < d.out)
    (x k : ℕ → R) :
    tapSum (convTaps [d] cinK cout groups (o * cout + c)) x k =
      ∑ j ∈ range d.kernel, ∑ ci ∈ range cinK,
        d.pick o j (fun i => x (i * (groups * cinK) + (c / (cout / groups) * cinK + ci))) * k ((j * cinK + ci) * cout + c) := by
  obtain ⟨h1, h2⟩ := divmod_lt (a := o) hc
  unfold convTaps
  simp only [h1, h2]
  rw [tapSum_flatMap, list_sum_range]
  simp only [List.map_cons, List.map_nil, prodL, mul_one]
  apply sum_congr rfl
  intro j _
  simp only [unravel, prodL, Nat.div_one, convSrc]
  rcases src_eq d o j with ⟨h, hh⟩ | ⟨h, hh⟩
  · simp only [h]
    unfold tapSum
    rw [List.map_map, list_sum_range]
    apply sum_congr rfl
    intro ci _
    unfold ConvDim.pick
    rw [if_pos hh]
    simp [ravel, prodL]
  · simp only [h, tapSum, List.map_nil, List.sum_nil]
    symm
    apply sum_eq_zero
    intro ci _
    unfold ConvDim.pick
    rw [if_neg hh, zero_mul]

/-- 2-D convolution -/
theorem conv2_tapSum {R : Type} [Semiring R] (d e : ConvDim) (cinK cout groups o o' c : ℕ) (hc : c < cout) (ho : o' < e.out)
    (x k : ℕ → R) :
    tapSum (convTaps [d, e] cinK cout groups ((o * e.out + o') * cout + c)) x k =
      ∑ j ∈ range d.kernel, ∑ j' ∈ range e.kernel, ∑ ci ∈ range cinK,
        d.pick o j (fun i => e.pick o' j' fun i' =>
          x ((i * e.inp + i') * (groups * cinK) + (c / (cout / groups) * cinK + ci))) *
            k (((j * e.kernel + j') * cinK + ci) * cout + c) := by
  obtain ⟨h1, h2⟩ := divmod_lt (a := o * e.out + o') hc
  obtain ⟨h3, h4⟩ := divmod_lt (a := o) ho
  unfold convTaps
  simp only [h1, h2]
  rw [tapSum_flatMap, list_sum_range]
  simp only [List.map_cons, List.map_nil, prodL, mul_one]
  rw [sum_range_mul]
  apply sum_congr rfl
  intro j _
  apply sum_congr rfl
  intro j' hj'
  obtain ⟨h5, h6⟩ := divmod_lt (a := j) (mem_range.mp hj')
  simp only [unravel, prodL, Nat.div_one, mul_one, h3, h4, h5, h6, convSrc]
  rcases src_eq d o j with ⟨h, hh⟩ | ⟨h, hh⟩
  · rcases src_eq e o' j' with ⟨h', hh'⟩ | ⟨h', hh'⟩
    · simp only [h, h']
      unfold tapSum
      rw [List.map_map, list_sum_range]
      apply sum_congr rfl
      intro ci _
      unfold ConvDim.pick
      rw [if_pos hh]
      dsimp only
      rw [if_pos hh']
      simp [ravel, prodL]
    · simp only [h, h', tapSum, List.map_nil, List.sum_nil]
      symm
      apply sum_eq_zero
      intro ci _
      unfold ConvDim.pick
      rw [if_pos hh]
      dsimp only
      rw [if_neg hh', zero_mul]
  · simp only [h, tapSum, List.map_nil, List.sum_nil]
    symm
    apply sum_eq_zero
    intro ci _
    unfold ConvDim.pick
    rw [if_neg hh, zero_mul]

theorem pick_padded {R : Type} [Zero R] (d : ConvDim) (o j : ℕ) (x : ℕ → R) :
    d.pick o j x = Spec.padded d.inp x ((o : ℤ) * d.stride + j * d.dilation - d.padLo) := by
  unfold ConvDim.pick Spec.padded
  generalize ha : o * d.stride + j * d.dilation = a
  have : (o : ℤ) * d.stride + j * d.dilation = (a : ℤ) := by rw [← ha]; push_cast; rfl
  rw [this]
  by_cases h : d.padLo ≤ a ∧ a - d.padLo < d.inp
  · rw [if_pos h, if_pos (by omega)]
    congr 1
    omega
  · rw [if_neg h, if_neg (by omega)]

end HGQ
