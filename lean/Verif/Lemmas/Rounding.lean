import Verif.Lemmas.FixedPoint

namespace HGQ

theorem isNearest_of_abs_le_half {x : ℚ} {n : ℤ} (h : |x - n| ≤ 1 / 2) : Spec.IsNearest x n := by
  intro m
  by_cases hm : m = n
  · rw [hm]
  · have h1 : (1 : ℚ) ≤ |(n : ℚ) - m| := by
      have : (1 : ℤ) ≤ |n - m| := Int.one_le_abs (sub_ne_zero.mpr (Ne.symm hm))
      exact_mod_cast this
    have h2 : |(n : ℚ) - m| ≤ |x - n| + |x - m| := by
      have : (n : ℚ) - m = -(x - n) + (x - m) := by ring
      rw [this]
      calc _ ≤ |-(x - n)| + |x - m| := abs_add_le _ _
        _ = _ := by rw [abs_neg]
    linarith

theorem abs_le_half_of_isNearest {x : ℚ} {n : ℤ} (h : Spec.IsNearest x n) : |x - n| ≤ 1 / 2 := by
  have h1 := h (flr (x + 1 / 2))
  refine h1.trans ?_
  unfold flr
  have := Int.floor_le (x + 1 / 2)
  have := Int.lt_floor_add_one (x + 1 / 2)
  rw [abs_le]; constructor <;> linarith

theorem flr_le (x : ℚ) : (flr x : ℚ) ≤ x := Int.floor_le x
theorem lt_flr_add_one (x : ℚ) : x < (flr x : ℚ) + 1 := Int.lt_floor_add_one x
theorem flr_mono {x y : ℚ} (h : x ≤ y) : flr x ≤ flr y := Int.floor_le_floor h
theorem flr_eq_iff {x : ℚ} {n : ℤ} : flr x = n ↔ (n : ℚ) ≤ x ∧ x < n + 1 := Int.floor_eq_iff
theorem le_flr {x : ℚ} {n : ℤ} : n ≤ flr x ↔ (n : ℚ) ≤ x := Int.le_floor
theorem flr_lt {x : ℚ} {n : ℤ} : flr x < n ↔ x < (n : ℚ) := Int.floor_lt

theorem rndRND_bounds (x : ℚ) : rndRND x - 1 / 2 ≤ x ∧ x < rndRND x + 1 / 2 := by
  unfold rndRND
  have := flr_le (x + 1 / 2)
  have := lt_flr_add_one (x + 1 / 2)
  constructor <;> linarith

theorem rndMININF_bounds (x : ℚ) : rndMININF x - 1 / 2 < x ∧ x ≤ rndMININF x + 1 / 2 := by
  unfold rndMININF
  have := flr_le (-x + 1 / 2)
  have := lt_flr_add_one (-x + 1 / 2)
  constructor <;> linarith

theorem tfRound_bounds (x : ℚ) : |x - tfRound x| ≤ 1 / 2 := by
  unfold tfRound
  simp only
  have h1 := Int.floor_le x
  have h2 := Int.lt_floor_add_one x
  split_ifs <;> rw [abs_le] <;> constructor <;> push_cast <;> linarith

theorem rndZERO_of_nonneg {x : ℚ} (h : 0 ≤ x) : rndZERO x = rndMININF x := by
  unfold rndZERO rndMININF
  rcases h.eq_or_lt with rfl | h
  · simp only [abs_zero, tfSign]; norm_num [flr]
  · rw [abs_of_pos h, tfSign, if_pos h, mul_one]

theorem rndZERO_of_neg {x : ℚ} (h : x < 0) : rndZERO x = rndRND x := by
  unfold rndZERO rndRND
  rw [abs_of_neg h, tfSign, if_neg (by linarith), if_pos h]; simp

theorem rndINF_of_nonneg {x : ℚ} (h : 0 ≤ x) : rndINF x = rndRND x := by
  unfold rndINF rndRND
  rcases h.eq_or_lt with rfl | h
  · simp only [abs_zero, tfSign]; norm_num [flr]
  · rw [abs_of_pos h, tfSign, if_pos h, mul_one]

theorem rndINF_of_neg {x : ℚ} (h : x < 0) : rndINF x = rndMININF x := by
  unfold rndINF rndMININF
  rw [abs_of_neg h, tfSign, if_neg (by linarith), if_pos h]; ring

theorem rndTRNZERO_of_nonneg {x : ℚ} (h : 0 ≤ x) : rndTRNZERO x = flr x := by
  unfold rndTRNZERO
  rcases h.eq_or_lt with rfl | h
  · simp only [abs_zero, tfSign]; norm_num [flr]
  · rw [abs_of_pos h, tfSign, if_pos h, mul_one]

theorem rndTRNZERO_of_neg {x : ℚ} (h : x < 0) : rndTRNZERO x = -(flr (-x) : ℚ) := by
  unfold rndTRNZERO
  rw [abs_of_neg h, tfSign, if_neg (by linarith), if_pos h]; ring

/-- the modes that round to nearest -/
def Rnd.nearest : Rnd → Bool
  | .TRN => false
  | .TRN_ZERO => false
  | _ => true

theorem rndMap_nearest {R : Rnd} (h : R.nearest = true) (x : ℚ) : |x - rndMap R x| ≤ 1 / 2 := by
  have hR := rndRND_bounds x
  have hM := rndMININF_bounds x
  cases R
  · simp [Rnd.nearest] at h
  · show |x - rndRND x| ≤ 1 / 2
    rw [abs_le]; constructor <;> linarith [hR.1, hR.2]
  · exact tfRound_bounds x
  · simp [Rnd.nearest] at h
  · show |x - rndZERO x| ≤ 1 / 2
    rcases lt_or_ge x 0 with hx | hx
    · rw [rndZERO_of_neg hx, abs_le]; constructor <;> linarith [hR.1, hR.2]
    · rw [rndZERO_of_nonneg hx, abs_le]; constructor <;> linarith [hM.1, hM.2]
  · show |x - rndMININF x| ≤ 1 / 2
    rw [abs_le]; constructor <;> linarith [hM.1, hM.2]
  · show |x - rndINF x| ≤ 1 / 2
    rcases lt_or_ge x 0 with hx | hx
    · rw [rndINF_of_neg hx, abs_le]; constructor <;> linarith [hM.1, hM.2]
    · rw [rndINF_of_nonneg hx, abs_le]; constructor <;> linarith [hR.1, hR.2]

theorem rndMap_mono (R : Rnd) {x y : ℚ} (h : x ≤ y) : rndMap R x ≤ rndMap R y := by
  by_cases hn : R.nearest = true
  · rcases h.eq_or_lt with rfl | hlt
    · exact le_rfl
    · have hx := rndMap_nearest hn x
      have hy := rndMap_nearest hn y
      obtain ⟨n, en⟩ := rndMap_int R x
      obtain ⟨m, em⟩ := rndMap_int R y
      rw [en] at hx ⊢; rw [em] at hy ⊢
      rw [abs_le] at hx hy
      have : (n : ℚ) < m + 1 := by linarith [hx.1, hy.2]
      have : n < m + 1 := by exact_mod_cast this
      have : n ≤ m := by omega
      exact_mod_cast this
  · cases R <;> simp [Rnd.nearest] at hn
    · show (flr x : ℚ) ≤ flr y
      exact_mod_cast flr_mono h
    · show rndTRNZERO x ≤ rndTRNZERO y
      rcases lt_or_ge x 0 with hx | hx <;> rcases lt_or_ge y 0 with hy | hy
      · rw [rndTRNZERO_of_neg hx, rndTRNZERO_of_neg hy]
        have : flr (-y) ≤ flr (-x) := flr_mono (by linarith)
        have : (flr (-y) : ℚ) ≤ flr (-x) := by exact_mod_cast this
        linarith
      · rw [rndTRNZERO_of_neg hx, rndTRNZERO_of_nonneg hy]
        have h1 : 0 ≤ flr (-x) := le_flr.mpr (by push_cast; linarith)
        have h2 : 0 ≤ flr y := le_flr.mpr (by push_cast; linarith)
        have h1' : (0 : ℚ) ≤ flr (-x) := by exact_mod_cast h1
        have h2' : (0 : ℚ) ≤ flr y := by exact_mod_cast h2
        linarith
      · linarith
      · rw [rndTRNZERO_of_nonneg hx, rndTRNZERO_of_nonneg hy]
        exact_mod_cast flr_mono h

end HGQ
