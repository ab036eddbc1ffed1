import Verif.Lemmas.Float32

/-! `fl32` is rounding to the nearest number with 24 significant bits, ties to even. -/

namespace HGQ

open Spec (IsFloat32 RoundsTo)

theorem tfRound_nearest (t : ℚ) (k : ℤ) : |(tfRound t : ℚ) - t| ≤ |(k : ℚ) - t| := by
  have h := tfRound_bounds t
  rw [abs_sub_comm] at h
  by_cases hk : k = tfRound t
  · rw [hk]
  · have h1 : (1 : ℚ) ≤ |((k - tfRound t : ℤ) : ℚ)| := by
      exact_mod_cast Int.one_le_abs (sub_ne_zero.mpr hk)
    push_cast at h1
    have h2 := abs_sub_le (k : ℚ) t (tfRound t)
    rw [abs_sub_comm t] at h2
    linarith

theorem tfRound_tie {t : ℚ} {k : ℤ} (hk : k ≠ tfRound t) (h : |(k : ℚ) - t| = |(tfRound t : ℚ) - t|) :
    tfRound t % 2 = 0 ∧ (k = tfRound t + 1 ∨ k = tfRound t - 1) := by
  have hb := tfRound_bounds t
  rw [abs_sub_comm] at hb
  have h1 : (1 : ℚ) ≤ |((k - tfRound t : ℤ) : ℚ)| := by
    exact_mod_cast Int.one_le_abs (sub_ne_zero.mpr hk)
  have h2 := abs_sub_le (k : ℚ) t (tfRound t)
  rw [abs_sub_comm t, h] at h2
  push_cast at h1
  have h3 : |(k : ℚ) - tfRound t| = 1 := by linarith
  have h4 : |(tfRound t : ℚ) - t| = 1 / 2 := by linarith
  constructor
  · unfold tfRound at h4 ⊢
    dsimp only at h4 ⊢
    have ha := Int.floor_le t
    have hb := Int.lt_floor_add_one t
    split_ifs at h4 ⊢ with c1 c2 c3
    · rw [abs_of_nonpos (by linarith)] at h4; exfalso; linarith
    · push_cast at h4; rw [abs_of_nonneg (by linarith)] at h4; exfalso; linarith
    · exact c3
    · omega
  · have h5 : |k - tfRound t| = 1 := by exact_mod_cast h3
    rcases abs_eq (by norm_num : (0 : ℤ) ≤ 1) |>.mp h5 with h | h <;> omega

/-- the scaled problem for a positive number -/
theorem float_scaled {x z : ℚ} (hx : 0 < x) (hz : IsFloat32 z) :
    (∃ k : ℤ, z = k * p2 (Int.log 2 |x| - 23)) ∨
      ((2 ^ 23 : ℤ) : ℚ) * p2 (Int.log 2 |x| - 23) ≤ x ∧ z < ((2 ^ 23 : ℤ) : ℚ) * p2 (Int.log 2 |x| - 23) := by
  set L := Int.log 2 |x| with hL
  have hb := log_bounds hx.ne'
  rw [← hL, abs_of_pos hx] at hb
  have h23 : ((2 ^ 23 : ℤ) : ℚ) * p2 (L - 23) = p2 L := by
    have := p2_natCast 23
    rw [← this, ← p2_add]; congr 1; push_cast; ring
  rw [h23]
  rcases le_or_gt (p2 L) |z| with h | h
  · left
    have hz0 : z ≠ 0 := by
      intro h0; rw [h0, abs_zero] at h; linarith [p2_pos L]
    have := (p2_le_log _ (abs_pos.mpr hz0)).mp h
    exact grid_coarse (by omega) hz.grid
  · right
    exact ⟨hb.1, lt_of_le_of_lt (le_abs_self _) h⟩

theorem fl32_pos_eq {x : ℚ} (hx : 0 < x) :
    fl32 x = tfRound (x * p2 (-(Int.log 2 |x| - 23))) * p2 (Int.log 2 |x| - 23) ∧
      2 ^ 23 ≤ tfRound (x * p2 (-(Int.log 2 |x| - 23))) ∧ tfRound (x * p2 (-(Int.log 2 |x| - 23))) ≤ 2 ^ 24 := by
  refine ⟨by unfold fl32; rw [if_neg hx.ne'], ?_⟩
  set L := Int.log 2 |x| with hL
  have hb := log_bounds hx.ne'
  rw [← hL, abs_of_pos hx] at hb
  have hp := p2_pos (-(L - 23))
  have e1 : p2 L * p2 (-(L - 23)) = ((2 ^ 23 : ℤ) : ℚ) := by
    rw [← p2_add, show L + -(L - 23) = ((23 : ℕ) : ℤ) by push_cast; ring, p2_natCast]
  have e2 : p2 (L + 1) * p2 (-(L - 23)) = ((2 ^ 24 : ℤ) : ℚ) := by
    rw [← p2_add, show L + 1 + -(L - 23) = ((24 : ℕ) : ℤ) by push_cast; ring, p2_natCast]
  have h1 := tfRound_mono (mul_le_mul_of_nonneg_right hb.1 hp.le)
  have h2 := tfRound_mono (mul_le_mul_of_nonneg_right hb.2.le hp.le)
  rw [e1, tfRound_int] at h1
  rw [e2, tfRound_int] at h2
  exact ⟨h1, h2⟩

theorem scaled_dist {x e' : ℚ} {e k : ℤ} (he : e' = p2 e) : |(k : ℚ) * e' - x| = |(k : ℚ) - x * p2 (-e)| * p2 e := by
  rw [he, ← abs_of_pos (p2_pos e), ← abs_mul, abs_of_pos (p2_pos e), sub_mul, mul_assoc, p2_neg_mul, mul_one]

theorem fl32_rounds_pos {x : ℚ} (hx : 0 < x) : RoundsTo x (fl32 x) := by
  obtain ⟨h1, h2, h3⟩ := fl32_pos_eq hx
  set e := Int.log 2 |x| - 23 with he
  set r := tfRound (x * p2 (-e)) with hr
  have hp := p2_pos e
  have hgrid : ∀ k : ℤ, |fl32 x - x| ≤ |(k : ℚ) * p2 e - x| := by
    intro k
    rw [h1, scaled_dist rfl, scaled_dist rfl]
    exact mul_le_mul_of_nonneg_right (tfRound_nearest _ k) hp.le
  have hlow : ∀ z, ((2 ^ 23 : ℤ) : ℚ) * p2 e ≤ x → z < ((2 ^ 23 : ℤ) : ℚ) * p2 e → |fl32 x - x| < |z - x| := by
    intro z ha hb
    refine lt_of_le_of_lt (hgrid (2 ^ 23)) ?_
    rw [abs_of_nonpos (by linarith), abs_of_nonpos (by linarith)]
    linarith
  refine ⟨?_, fun z hz => ?_, fun z hz hne htie => ?_⟩
  · rw [h1]
    exact (isFloat32_int r (by rw [abs_of_nonneg (by omega)]; exact h3)).mul_p2 e
  · rcases float_scaled hx hz with ⟨k, rfl⟩ | ⟨ha, hb⟩
    · exact hgrid k
    · exact (hlow z ha hb).le
  · rcases float_scaled hx hz with ⟨k, rfl⟩ | ⟨ha, hb⟩
    · rw [h1, scaled_dist rfl, scaled_dist rfl] at htie
      have hkr : k ≠ r := by
        intro h; apply hne; rw [h, h1]
      obtain ⟨hev, -⟩ := tfRound_tie hkr (mul_right_cancel₀ hp.ne' htie)
      rw [← hr] at hev
      rcases lt_or_eq_of_le h3 with h | h
      · refine ⟨r / 2, e + 1, by rw [abs_of_nonneg (by omega)]; omega, ?_⟩
        rw [h1]
        change _ = _ * p2 (e + 1)
        rw [p2_succ]
        have : (r : ℚ) = ((2 * (r / 2) : ℤ) : ℚ) := by congr 1; omega
        conv_lhs => rw [this]
        push_cast
        ring
      · refine ⟨1, e + 24, by norm_num, ?_⟩
        rw [h1, h]
        change _ = _ * p2 (e + 24)
        rw [p2_add]
        push_cast
        rw [one_mul, mul_comm]
        congr 1
    · exact absurd htie (hlow z ha hb).ne'

theorem _root_.Spec.RoundsTo.neg {x y : ℚ} (h : RoundsTo x y) : RoundsTo (-x) (-y) := by
  have hd : ∀ a b : ℚ, |-a - -b| = |a - b| := by
    intro a b; rw [← abs_neg]; congr 1; ring
  have hd' : ∀ a b : ℚ, |a - -b| = |-a - b| := by
    intro a b; rw [← abs_neg]; congr 1; ring
  refine ⟨h.float.neg, fun z hz => ?_, fun z hz hne htie => ?_⟩
  · rw [hd, hd']; exact h.nearest _ hz.neg
  · rw [hd, hd'] at htie
    obtain ⟨m, e, hm, he⟩ := h.even (-z) hz.neg (fun h' => hne (by rw [← h', neg_neg])) htie
    exact ⟨-m, e, by rwa [abs_neg], by rw [he]; push_cast; ring⟩

theorem fl32_rounds (x : ℚ) : RoundsTo x (fl32 x) := by
  rcases lt_trichotomy x 0 with h | h | h
  · have := (fl32_rounds_pos (neg_pos.mpr h)).neg
    rwa [fl32_neg, neg_neg, neg_neg] at this
  · rw [h, fl32_zero]
    refine ⟨⟨0, 0, by norm_num, by norm_num⟩, fun z _ => by simp, fun z _ hne htie => ?_⟩
    simp at htie
    exact absurd htie hne
  · exact fl32_rounds_pos h

theorem rounds_unique_pos {x y : ℚ} (hx : 0 < x) (h : RoundsTo x y) : y = fl32 x := by
  obtain ⟨h1, h2, h3⟩ := fl32_pos_eq hx
  have hfl := fl32_rounds_pos hx
  set e := Int.log 2 |x| - 23 with he
  set r := tfRound (x * p2 (-e)) with hr
  have hp := p2_pos e
  rcases float_scaled hx h.float with ⟨k, hk⟩ | ⟨ha, hb⟩
  · rw [← he] at hk
    by_contra hne
    have htie : |y - x| = |fl32 x - x| := le_antisymm (h.nearest _ hfl.float) (hfl.nearest _ h.float)
    have hkr : k ≠ r := by
      intro h; apply hne; rw [hk, h1, h]
    obtain ⟨m, e', hm, hme⟩ := h.even _ hfl.float (Ne.symm hne) htie.symm
    rw [hk, h1, scaled_dist rfl, scaled_dist rfl] at htie
    obtain ⟨hev, hk1⟩ := tfRound_tie hkr (mul_right_cancel₀ hp.ne' htie)
    rw [← hr] at hev hk1
    -- both significands are even
    have hk23 : 2 ^ 23 ≤ |k| := by
      rcases hk1 with h | h
      · rw [abs_of_nonneg (by omega)]; omega
      · rcases eq_or_lt_of_le h2 with h' | h'
        · -- then `x` is at least `2^23` units, `k` one less
          exfalso
          have hb := log_bounds hx.ne'
          rw [abs_of_pos hx] at hb
          have hge : ((2 ^ 23 : ℤ) : ℚ) ≤ x * p2 (-e) := by
            have e1 : p2 (Int.log 2 x) * p2 (-e) = ((2 ^ 23 : ℤ) : ℚ) := by
              rw [← p2_add, he, abs_of_pos hx, show Int.log 2 x + -(Int.log 2 x - 23) = ((23 : ℕ) : ℤ) by push_cast; ring, p2_natCast]
            rw [← e1]
            exact mul_le_mul_of_nonneg_right hb.1 (p2_pos _).le
          have ht := mul_right_cancel₀ hp.ne' htie
          rw [h, ← h'] at ht
          push_cast at ht hge
          rw [abs_of_nonpos (by linarith), abs_of_nonpos (by linarith)] at ht
          linarith
        · rw [abs_of_nonneg (by omega)]; omega
    rw [hk] at hme
    have hme' : (k : ℚ) * p2 e = m * p2 e' := hme
    have hlt : e < e' := by
      by_contra hle
      push Not at hle
      have h5 : |(k : ℚ)| * p2 e = |(m : ℚ)| * p2 e' := by
        have := congrArg abs hme'
        rwa [abs_mul, abs_mul, abs_of_pos (p2_pos e), abs_of_pos (p2_pos e')] at this
      have h6 : |(m : ℚ)| < 2 ^ 23 := by exact_mod_cast hm
      have h7 : (2 : ℚ) ^ 23 ≤ |(k : ℚ)| := by exact_mod_cast hk23
      have h8 : |(m : ℚ)| * p2 e' ≤ |(m : ℚ)| * p2 e := mul_le_mul_of_nonneg_left (p2_le_p2 hle) (abs_nonneg _)
      have h9 : |(m : ℚ)| * p2 e < |(k : ℚ)| * p2 e := mul_lt_mul_of_pos_right (by linarith) hp
      linarith
    obtain ⟨n, hn⟩ : ∃ n : ℕ, e' = e + 1 + n := ⟨(e' - e - 1).toNat, by omega⟩
    have hk2 : k = 2 * (m * 2 ^ n) := by
      rw [hn, p2_add, p2_succ, p2_natCast] at hme'
      have : (k : ℚ) * p2 e = ((2 * (m * 2 ^ n) : ℤ) : ℚ) * p2 e := by rw [hme']; push_cast; ring
      exact_mod_cast mul_right_cancel₀ hp.ne' this
    omega
  · exfalso
    have h4 := h.nearest _ hfl.float
    have h5 : |fl32 x - x| ≤ |((2 ^ 23 : ℤ) : ℚ) * p2 e - x| := hfl.nearest _ ((isFloat32_int (2 ^ 23) (by norm_num)).mul_p2 e)
    rw [abs_of_nonpos (by linarith : y - x ≤ 0)] at h4
    rw [abs_of_nonpos (by linarith : ((2 ^ 23 : ℤ) : ℚ) * p2 e - x ≤ 0)] at h5
    linarith

/-- rounding to the nearest, ties to even, determines the result -/
theorem rounds_unique {x y : ℚ} (h : RoundsTo x y) : y = fl32 x := by
  rcases lt_trichotomy x 0 with hx | hx | hx
  · have := rounds_unique_pos (neg_pos.mpr hx) h.neg
    rw [fl32_neg] at this
    linarith
  · have := h.nearest 0 ⟨0, 0, by norm_num, by norm_num⟩
    rw [hx] at this ⊢
    rw [fl32_zero]
    simpa using this
  · exact rounds_unique_pos hx h

end HGQ
