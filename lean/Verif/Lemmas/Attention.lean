import Verif.Model.Attention
import Verif.Spec.Attention
import Verif.Lemmas.Taps

/-!
Index arithmetic for the attention layer.
-/

namespace HGQ.Attn
open Finset

theorem dense_eq {din dout : ℕ} (W b x : ℕ → ℝ) {i c : ℕ} (hc : c < dout) :
    dense din dout W b x (i * dout + c) =
      Spec.proj din (fun e c => W (e * dout + c)) b (fun i e => x (i * din + e)) i c := by
  obtain ⟨h1, h2⟩ := divmod_lt (a := i) hc
  unfold dense Spec.proj
  rw [h1, h2]

theorem transpose_eq {A B D : ℕ} (X : ℕ → ℝ) {a b d : ℕ} (ha : a < A) (hd : d < D) :
    transpose A B D X ((b * A + a) * D + d) = X ((a * B + b) * D + d) := by
  obtain ⟨h1, h2⟩ := divmod_lt (a := b * A + a) hd
  obtain ⟨h3, h4⟩ := divmod_lt (a := b) ha
  unfold transpose
  dsimp only
  rw [mul_comm A D, ← Nat.div_div_eq_div_mul, h1, h2, h3, h4]

theorem matmulT_eq {n m D : ℕ} (Q K : ℕ → ℝ) {h i j : ℕ} (hi : i < n) (hj : j < m) :
    matmulT n m D Q K ((h * n + i) * m + j) = ∑ d ∈ range D, Q ((h * n + i) * D + d) * K ((h * m + j) * D + d) := by
  obtain ⟨h1, h2⟩ := divmod_lt (a := h * n + i) hj
  obtain ⟨h3, h4⟩ := divmod_lt (a := h) hi
  unfold matmulT
  rw [mul_comm n m, ← Nat.div_div_eq_div_mul, h1, h2, h3]

theorem matmul_eq {n m D : ℕ} (A V : ℕ → ℝ) {h i d : ℕ} (hi : i < n) (hd : d < D) :
    matmul n m D A V ((h * n + i) * D + d) = ∑ j ∈ range m, A ((h * n + i) * m + j) * V ((h * m + j) * D + d) := by
  obtain ⟨h1, h2⟩ := divmod_lt (a := h * n + i) hd
  obtain ⟨h3, h4⟩ := divmod_lt (a := h) hi
  unfold matmul
  rw [mul_comm n D, ← Nat.div_div_eq_div_mul, h1, h2, h3]

theorem softmaxRows_eq {m : ℕ} (X : ℕ → ℝ) {r j : ℕ} (hj : j < m) :
    softmaxRows m X (r * m + j) = Spec.softmax m (fun j => X (r * m + j)) j := by
  obtain ⟨h1, h2⟩ := divmod_lt (a := r) hj
  unfold softmaxRows Spec.softmax
  rw [h1]

theorem mask_index {n m h i j : ℕ} (hi : i < n) (hj : j < m) : ((h * n + i) * m + j) % (n * m) = i * m + j := by
  have : (h * n + i) * m + j = (i * m + j) + h * (n * m) := by ring
  rw [this, Nat.add_mul_mod_self_right, Nat.mod_eq_of_lt]
  calc i * m + j < i * m + m := by omega
    _ = (i + 1) * m := by ring
    _ ≤ n * m := Nat.mul_le_mul_right _ hi

theorem head_lt {H D h d : ℕ} (hh : h < H) (hd : d < D) : h * D + d < D * H := by
  calc h * D + d < h * D + D := by omega
    _ = D * (h + 1) := by ring
    _ ≤ D * H := Nat.mul_le_mul_left _ hh

/-- one head's slice of a projected tensor after `reshape` and `transpose` -/
theorem slice_eq {n H D din : ℕ} (W b x : ℕ → ℝ) {h i d : ℕ} (hh : h < H) (hi : i < n) (hd : d < D) :
    transpose n H D (dense din (D * H) W b x) ((h * n + i) * D + d) =
      Spec.block D h (Spec.proj din (fun e c => W (e * (D * H) + c)) b (fun i e => x (i * din + e))) i d := by
  rw [transpose_eq _ hi hd]
  have : (i * H + h) * D + d = i * (D * H) + (h * D + d) := by ring
  rw [this, dense_eq _ _ _ (head_lt hh hd)]
  rfl

end HGQ.Attn
