import Verif.Model.Quantizer
import Verif.Lemmas.Rounding

namespace HGQ

theorem evalQ_eq (st : ℤ) (fbw x : ℚ) :
    evalQ st fbw x = (if st = 3 then (flr (x * p2 (tfRound fbw)) : ℚ) else flr (x * p2 (tfRound fbw) + 1 / 2))
      * p2 (-(tfRound fbw)) := by
  unfold evalQ
  simp only [div_p2]; ring

theorem evalQ_floor (fbw x : ℚ) :
    evalQ 3 fbw x = (flr (x * p2 (tfRound fbw)) : ℚ) * p2 (-(tfRound fbw)) := by
  rw [evalQ_eq, if_pos rfl]

theorem evalQ_round {st : ℤ} (h : st ≠ 3) (fbw x : ℚ) :
    evalQ st fbw x = (flr (x * p2 (tfRound fbw) + 1 / 2) : ℚ) * p2 (-(tfRound fbw)) := by
  rw [evalQ_eq, if_neg h]

theorem evalQ_grid (st : ℤ) (fbw x : ℚ) : ∃ n : ℤ, evalQ st fbw x = n * p2 (-(tfRound fbw)) := by
  rw [evalQ_eq]
  split_ifs
  · exact ⟨_, rfl⟩
  · exact ⟨_, rfl⟩

theorem evalQ_of_grid (st : ℤ) (fbw : ℚ) (n : ℤ) :
    evalQ st fbw (n * p2 (-(tfRound fbw))) = n * p2 (-(tfRound fbw)) := by
  rw [evalQ_eq, mul_assoc, p2_neg_mul, mul_one]
  split_ifs
  · rw [flr_int]
  · rw [flr_int_half]

theorem evalQ_mono (st : ℤ) (fbw : ℚ) {x y : ℚ} (h : x ≤ y) : evalQ st fbw x ≤ evalQ st fbw y := by
  rw [evalQ_eq, evalQ_eq]
  have h' := mul_le_mul_of_nonneg_right h (p2_pos (tfRound fbw)).le
  apply mul_le_mul_of_nonneg_right _ (p2_pos _).le
  split_ifs
  · exact_mod_cast flr_mono h'
  · exact_mod_cast flr_mono (by linarith)

end HGQ
