import Verif.Lemmas.Precision

/-!
Shrinking a quantizer to the type of its input: the core of C35.
-/

namespace HGQ

open Spec

theorem gq_sat_nonpos {i f : ℤ} (hw : 0 ≤ i + f) (R : Rnd) (x : ℚ) (hx : rv R f x ≤ 0) :
    gq false i f R .SAT x = 0 := by
  rcases hw.eq_or_lt with h | h
  · unfold gq
    have e : false.toInt + i + f = 0 := by rw [toInt_false]; omega
    rw [e, gfixed_zero_bits]
  · rw [gq_sat false (by rw [toInt_false]; omega)]
    have h1 : p2 (-f) ≤ p2 i := p2_le_p2 (by omega)
    simp only [toInt_false, Int.cast_zero, zero_mul, neg_zero]
    rw [max_eq_right hx, min_eq_left (by linarith)]

/-- the shrunk integer bits actually stored -/
def storedI (s s' : Bool) (i iret : ℤ) : ℤ := if s' = s then min i iret else iret

theorem narrow_core (s0 s : Bool) (ii fi i f : ℤ) (R : Rnd) (S : Sat) (x : ℚ) (hx : IsKif s0.toInt ii fi x)
    (hS : S = .SAT ∨ S = .WRAP) (hw : 1 ≤ s.toInt + i + f)
    (h1 : S = .SAT → fi < f → ii ≤ i)
    (h2 : f < fi → 0 ≤ ii + f)
    (h3 : s0 = false → s = true → ii < i ∨ ii = i ∧ fi ≤ f ∨ S = .SAT ∧ f ≤ fi ∧ i < ii)
    (h4 : s0 = true → s = false → S = .SAT ∨ i ≤ ii)
    (f' iret : ℤ) (hf' : f' = min fi f) (hiret : iret = if ii ≤ i ∧ fi > f' then min ii i + 1 else min ii i)
    (hw' : 1 ≤ (s0 && s).toInt + iret + f') :
    gq (s0 && s) (storedI s (s0 && s) i iret) f' R S x = gq s i f R S x ∧
      IsKif (s0 && s).toInt iret f' (gq s i f R S x) := by
  have hSym : S ≠ .SAT_SYM := by rcases hS with h | h <;> rw [h] <;> decide
  obtain ⟨gx, lx, ux⟩ := hx
  change -(_ * p2 ii) ≤ _ at lx
  change _ < p2 ii at ux
  have hpi := p2_pos ii
  -- rounding is the same
  have hv : rv R f' x = rv R f x := by
    rcases le_or_gt fi f with h | h
    · rw [hf', min_eq_left h, rv_of_grid R fi gx, rv_of_grid R f (grid_refine h gx)]
    · rw [hf', min_eq_right h.le]
  have hgv : ∃ n : ℤ, rv R f x = n * p2 (-f') := by rw [← hv]; exact rv_grid R f' x
  -- equality implies membership
  suffices heq : gq (s0 && s) (storedI s (s0 && s) i iret) f' R S x = gq s i f R S x ∧
      0 ≤ (s0 && s).toInt + storedI s (s0 && s) i iret + f' by
    refine ⟨heq.1, ?_⟩
    rw [← heq.1]
    refine isKif_mono (gq_kif _ heq.2 R S x) ?_ le_rfl ?_ le_rfl
    · rcases toInt_cases (s0 && s) with h | h <;> omega
    · unfold storedI; split_ifs
      · exact min_le_right _ _
      · exact le_rfl
  -- both in range
  have hA : ∀ (s' : Bool) (i' : ℤ), 0 ≤ s'.toInt + i' + f' → IsKif s'.toInt i' f' (rv R f x) →
      IsKif s.toInt i f (rv R f x) → gq s' i' f' R S x = gq s i f R S x := by
    intro s' i' hw1 k1 k2
    rw [gq_of_kif s' hw1 R S hSym x (by rw [hv]; exact k1), gq_of_kif s (by omega) R S hSym x k2, hv]
  -- congruent
  have hC : S = .WRAP → 0 ≤ s.toInt + i + f' → gq s i f' R S x = gq s i f R S x := by
    rintro rfl hw1
    obtain ⟨a, ha⟩ := gq_wrap s hw1 R x
    obtain ⟨b, hb⟩ := gq_wrap s (by omega : 0 ≤ s.toInt + i + f) R x
    refine kif_mod_unique s (gq_kif s hw1 R _ x) (gq_kif s (by omega) R _ x) (b - a) ?_
    rw [hv] at ha
    push_cast; linarith
  rcases le_or_gt ii i with hii | hii
  · rcases le_or_gt fi f with hff | hff
    · -- no rounding, no overflow
      have ef : f' = fi := by rw [hf', min_eq_left hff]
      have ei : iret = ii := by rw [hiret, if_neg (by omega), min_eq_left hii]
      have est : storedI s (s0 && s) i iret = ii := by unfold storedI; rw [ei]; split_ifs <;> omega
      rw [est]
      have hvx : rv R f x = x := rv_of_grid R f (grid_refine hff gx)
      rw [ei] at hw'
      refine ⟨?_, by omega⟩
      have hxi : IsKif s0.toInt ii f' x := ⟨by rw [ef]; exact gx, lx, ux⟩
      cases s0 <;> cases s
      · exact hA _ _ (by simp only [Bool.and_true, Bool.and_false, Bool.true_and, Bool.false_and, toInt_true, toInt_false] at hw hw' ⊢; omega) (by rw [hvx]; exact hxi)
          (by rw [hvx]; exact isKif_mono hxi (by simp [toInt_false]) le_rfl hii (by omega))
      · exact hA _ _ (by simp only [Bool.and_true, Bool.and_false, Bool.true_and, Bool.false_and, toInt_true, toInt_false] at hw hw' ⊢; omega) (by rw [hvx]; exact hxi)
          (by rw [hvx]; exact isKif_mono hxi (by simp [toInt_false]) (by simp [toInt_false, toInt_true]) hii (by omega))
      · simp only [Bool.and_false] at hw' ⊢
        rcases hS with rfl | rfl
        · rcases le_or_gt x 0 with hx0 | hx0
          · rw [gq_sat_nonpos (by simp only [toInt_true, toInt_false] at hw hw' ⊢; omega) R x (by rw [hv, hvx]; exact hx0),
              gq_sat_nonpos (by simp only [toInt_true, toInt_false] at hw hw' ⊢; omega) R x (by rw [hvx]; exact hx0)]
          · have : IsKif false.toInt ii f' x := ⟨by rw [ef]; exact gx, by simp [toInt_false]; exact hx0.le, ux⟩
            exact hA _ _ (by simp only [Bool.and_true, Bool.and_false, Bool.true_and, Bool.false_and, toInt_true, toInt_false] at hw hw' ⊢; omega) (by rw [hvx]; exact this)
              (by rw [hvx]; exact isKif_mono this (by simp [toInt_false]) le_rfl hii (by omega))
        · have : ii = i := by
            rcases h4 rfl rfl with h | h
            · cases h
            · omega
          subst this
          exact hC rfl (by omega)
      · exact hA _ _ (by simp only [Bool.and_true, Bool.and_false, Bool.true_and, Bool.false_and, toInt_true, toInt_false] at hw hw' ⊢; omega) (by rw [hvx]; exact hxi)
          (by rw [hvx]; exact isKif_mono hxi (by simp [toInt_true]) le_rfl hii (by omega))
    · -- rounding
      have ef : f' = f := by rw [hf', min_eq_right hff.le]
      have ei : iret = ii + 1 := by rw [hiret, if_pos ⟨hii, by omega⟩, min_eq_left hii]
      have h2' := h2 hff
      have gp : ∃ n : ℤ, p2 ii = n * p2 (-f) := grid_p2 h2'
      have uv : rv R f x ≤ p2 ii := by
        have := rv_mono R f ux.le
        rwa [rv_of_grid R f gp] at this
      have hp1 : p2 (ii + 1) = 2 * p2 ii := p2_succ ii
      have lv : -(s0.toInt * p2 ii) ≤ rv R f x := by
        have g0 : ∃ n : ℤ, -((s0.toInt : ℚ) * p2 ii) = n * p2 (-f) := by
          obtain ⟨n, hn⟩ := gp
          exact ⟨-(s0.toInt * n), by rw [hn]; push_cast; ring⟩
        have := rv_mono R f lx
        rwa [rv_of_grid R f g0] at this
      have huv : rv R f x < p2 (ii + 1) := by rw [hp1]; linarith
      rw [ei] at hw'
      rw [ef] at hw' hgv
      -- in range of (s1, ii+1) and (s, i) when nothing negative meets an unsigned type
      have hin : ∀ s1 : Bool, (s1 = true ∨ 0 ≤ rv R f x) → ∀ j, ii + 1 ≤ j → IsKif s1.toInt j f (rv R f x) := by
        intro s1 hs1 j hj
        have hpj : p2 (ii + 1) ≤ p2 j := p2_le_p2 hj
        refine ⟨hgv, ?_, lt_of_lt_of_le huv hpj⟩
        change -(_ * p2 j) ≤ _
        rcases hs1 with rfl | h0
        · have : -(p2 ii) ≤ rv R f x := by
            refine le_trans ?_ lv
            rcases toInt_cases s0 with h | h <;> rw [h] <;> push_cast <;> linarith
          simp only [toInt_true, Int.cast_one, one_mul]; linarith
        · have : 0 ≤ (s1.toInt : ℚ) * p2 j := by
            apply mul_nonneg _ (p2_pos j).le
            rcases toInt_cases s1 with h | h <;> rw [h] <;> norm_num
          linarith
      by_cases hss : (s0 && s) = s
      · rw [hss] at hw' ⊢
        have est : storedI s s i iret = min i (ii + 1) := by unfold storedI; rw [if_pos rfl, ei]
        rw [est, ef]
        rcases hii.eq_or_lt with rfl | hlt
        · rw [min_eq_left (by omega)]; exact ⟨rfl, by omega⟩
        · rw [min_eq_right (by omega)]
          refine ⟨?_, by omega⟩
          rcases hcase : s with _ | _
          · subst hcase
            rcases le_or_gt 0 (rv R f x) with h0 | h0
            · have := hA false (ii + 1) (by rw [ef]; omega) (by rw [ef]; exact hin false (.inr h0) _ le_rfl)
                (hin false (.inr h0) i (by omega))
              rwa [ef] at this
            · have hs0 : s0 = true := by
                cases s0
                · simp only [toInt_false, Int.cast_zero, zero_mul, neg_zero] at lv; linarith
                · rfl
              have hSat : S = .SAT := by
                rcases h4 hs0 rfl with h | h
                · exact h
                · omega
              subst hSat
              rw [gq_sat_nonpos (by simp only [toInt_true, toInt_false] at hw hw' ⊢; omega) R x h0.le,
                gq_sat_nonpos (by simp only [toInt_true, toInt_false] at hw hw' ⊢; omega) R x h0.le]
          · subst hcase
            have := hA true (ii + 1) (by rw [ef]; omega) (by rw [ef]; exact hin true (.inl rfl) _ le_rfl)
              (hin true (.inl rfl) i (by omega))
            rwa [ef] at this
      · have hs : s0 = false ∧ s = true := by cases s0 <;> cases s <;> simp at hss ⊢
        obtain ⟨rfl, rfl⟩ := hs
        have hlt : ii < i := by
          rcases h3 rfl rfl with h | h | h
          · exact h
          · omega
          · omega
        simp only [Bool.false_and] at *
        have est : storedI true false i iret = ii + 1 := by unfold storedI; rw [if_neg (by simp), ei]
        rw [est, ef]
        have h0 : 0 ≤ rv R f x := by
          simpa [toInt_false] using lv
        refine ⟨?_, by omega⟩
        have := hA false (ii + 1) (by rw [ef]; omega) (by rw [ef]; exact hin false (.inr h0) _ le_rfl)
          (hin true (.inl rfl) i (by omega))
        rwa [ef] at this
  · -- overflow possible
    have ei : iret = i := by rw [hiret, if_neg (by omega), min_eq_right hii.le]
    rw [ei] at hw'
    by_cases hss : (s0 && s) = s
    · rw [hss] at hw' ⊢
      have est : storedI s s i iret = i := by unfold storedI; rw [if_pos rfl, ei, min_self]
      rw [est]
      refine ⟨?_, by omega⟩
      rcases le_or_gt f fi with h | h
      · rw [hf', min_eq_right h]
      · have : S = .WRAP := by
          rcases hS with h' | h'
          · have := h1 h' h; omega
          · exact h'
        exact hC this (by omega)
    · have hs : s0 = false ∧ s = true := by cases s0 <;> cases s <;> simp at hss ⊢
      obtain ⟨rfl, rfl⟩ := hs
      obtain ⟨rfl, h5, -⟩ : S = .SAT ∧ f ≤ fi ∧ i < ii := by
        rcases h3 rfl rfl with h | h | h
        · omega
        · omega
        · exact h
      have ef : f' = f := by rw [hf', min_eq_right h5]
      have est : storedI true (false && true) i iret = i := by unfold storedI; rw [if_neg (by simp), ei]
      rw [est, ef]
      rw [ef] at hw'
      simp only [Bool.false_and] at *
      refine ⟨?_, by omega⟩
      have h0 : 0 ≤ rv R f x := by
        have hx0 : 0 ≤ x := by simpa [toInt_false] using lx
        have := rv_mono R f hx0
        rwa [rv_of_grid R f ⟨0, by simp⟩] at this
      have hpi' := p2_pos i
      rw [gq_sat false hw', gq_sat true hw]
      simp only [toInt_false, toInt_true, Int.cast_zero, zero_mul, neg_zero, Int.cast_one, one_mul]
      rw [max_eq_left h0, max_eq_left (by linarith)]

end HGQ
