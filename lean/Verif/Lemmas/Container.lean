import Verif.Model.Container
import Verif.Lemmas.Bits

namespace HGQ

open Spec

theorem truncZero_eq_iff (x : ℚ) : (truncZero x : ℚ) = x ↔ ∃ n : ℤ, x = n := by
  constructor
  · intro h; exact ⟨_, h.symm⟩
  · rintro ⟨n, rfl⟩; unfold truncZero; split_ifs <;> simp

theorem allInt_iff (arr : List ℚ) (f : ℤ) : allInt arr f = true ↔ ∀ a ∈ arr, ∃ n : ℤ, a = n * p2 (-f) := by
  unfold allInt
  simp only [List.all_eq_true, decide_eq_true_eq, truncZero_eq_iff]
  constructor
  · intro h a ha
    obtain ⟨n, hn⟩ := h a ha
    exact ⟨n, by rw [← hn, mul_assoc, p2_mul_neg, mul_one]⟩
  · intro h a ha
    obtain ⟨n, hn⟩ := h a ha
    exact ⟨n, by rw [hn, mul_assoc, p2_neg_mul, mul_one]⟩

theorem grid_mono {a : ℚ} {f g : ℤ} (hfg : f ≤ g) (h : ∃ n : ℤ, a = n * p2 (-f)) : ∃ n : ℤ, a = n * p2 (-g) := by
  obtain ⟨n, rfl⟩ := h
  obtain ⟨q, hq, -⟩ := p2_int_of_nonneg (a := g - f) (by omega)
  refine ⟨n * q, ?_⟩
  push_cast
  rw [← hq, mul_assoc, ← p2_add]; congr 2; ring

theorem allInt_mono {arr : List ℚ} {f g : ℤ} (hfg : f ≤ g) (h : allInt arr f = true) : allInt arr g = true := by
  rw [allInt_iff] at *
  intro a ha; exact grid_mono hfg (h a ha)

/-- the bisection finds the threshold -/
theorem contLoop_spec (arr : List ℚ) (n : ℕ) (lf hf : ℤ) (hn : hf - lf ≤ n) (hlt : lf < hf) :
    lf < contLoop arr n lf hf ∧ contLoop arr n lf hf ≤ hf ∧
    (contLoop arr n lf hf ≠ hf → allInt arr (contLoop arr n lf hf) = true) ∧
    (contLoop arr n lf hf - 1 ≠ lf → allInt arr (contLoop arr n lf hf - 1) = false) := by
  induction n generalizing lf hf with
  | zero => omega
  | succ n ih =>
    unfold contLoop
    split_ifs with h1
    · refine ⟨hlt, le_rfl, fun h => absurd rfl h, fun h => absurd (by omega) h⟩
    · dsimp only
      split_ifs with h2
      · obtain ⟨i1, i2, i3, i4⟩ := ih lf ((lf + hf) / 2) (by omega) (by omega)
        refine ⟨i1, by omega, fun _ => ?_, i4⟩
        by_cases he : contLoop arr n lf ((lf + hf) / 2) = (lf + hf) / 2
        · rw [he]; exact h2
        · exact i3 he
      · obtain ⟨i1, i2, i3, i4⟩ := ih ((lf + hf) / 2) hf (by omega) (by omega)
        refine ⟨by omega, i2, i3, fun _ => ?_⟩
        by_cases he : contLoop arr n ((lf + hf) / 2) hf - 1 = (lf + hf) / 2
        · rw [he]; simpa using h2
        · exact i4 he

/-- more fuel changes nothing: 64 steps are as good as `while True` -/
theorem contLoop_fuel (arr : List ℚ) (n m : ℕ) (lf hf : ℤ) (hn : hf - lf ≤ n) (hm : hf - lf ≤ m) (hlt : lf < hf) :
    contLoop arr n lf hf = contLoop arr m lf hf := by
  induction n generalizing m lf hf with
  | zero => omega
  | succ n ih =>
    cases m with
    | zero => omega
    | succ m =>
      unfold contLoop
      split_ifs with h1
      · rfl
      · dsimp only
        split_ifs with h2
        · exact ih m _ _ (by omega) (by omega) (by omega)
        · exact ih m _ _ (by omega) (by omega) (by omega)

theorem le_maxBot {l : List (WithBot ℤ)} {x : WithBot ℤ} (h : x ∈ l) : x ≤ maxBot l := by
  unfold maxBot
  induction l with
  | nil => simp at h
  | cons a t ih =>
    rcases List.mem_cons.mp h with rfl | h
    · exact le_max_left _ _
    · exact le_max_of_le_right (ih h)

theorem maxBot_le {l : List (WithBot ℤ)} {x : WithBot ℤ} (h : ∀ y ∈ l, y ≤ x) : maxBot l ≤ x := by
  unfold maxBot
  induction l with
  | nil => exact bot_le
  | cons a t ih =>
    exact max_le (h a (by simp)) (ih fun y hy => h y (by simp [hy]))

theorem mem_linspace {k : ℤ} (hk : k = 0 ∨ k = 1) {i f : ℤ} (hw : 0 < k + i + f) {x : ℚ} (hx : IsKif k i f x) :
    x ∈ linspace (-p2 i * k) (p2 i - p2 (-f)) (2 ^ (k + i + f).toNat) := by
  obtain ⟨⟨n, rfl⟩, h1, h2⟩ := hx
  change -((k : ℚ) * p2 i) ≤ n * p2 (-f) at h1
  change (n : ℚ) * p2 (-f) < p2 i at h2
  have hp := p2_pos (-f)
  obtain ⟨w, hw'⟩ := Int.eq_ofNat_of_zero_le hw.le
  have htn : (k + i + f).toNat = w := by omega
  -- the number of points
  have hN : ((1 : ℚ) + k) * p2 (i + f) = ((2 ^ w : ℤ) : ℚ) := by
    rw [← p2_natCast]
    rcases hk with rfl | rfl
    · rw [show (w : ℤ) = i + f by omega]; simp
    · rw [show (w : ℤ) = i + f + 1 by omega, p2_succ]; push_cast; ring
  have hif : p2 i = p2 (i + f) * p2 (-f) := by rw [← p2_add]; congr 1; ring
  have hki : ∃ q : ℤ, (k : ℚ) * p2 (i + f) = q := by
    rcases hk with rfl | rfl
    · exact ⟨0, by simp⟩
    · obtain ⟨q, hq, -⟩ := p2_int_of_nonneg (a := i + f) (by omega)
      exact ⟨q, by simp [hq]⟩
  obtain ⟨q, hq⟩ := hki
  have hj0 : 0 ≤ n + q := by
    have : (0 : ℚ) ≤ (n + (k : ℚ) * p2 (i + f)) * p2 (-f) := by
      rw [add_mul, mul_assoc, ← hif]; linarith
    rw [hq] at this
    have h3 : (0 : ℚ) ≤ n + q := by
      by_contra hc; push Not at hc
      have := mul_neg_of_neg_of_pos hc hp
      linarith
    exact_mod_cast h3
  have hjN : n + q < 2 ^ w := by
    have h3 : (n + q : ℚ) < ((2 ^ w : ℤ) : ℚ) := by
      rw [← hN, ← hq]
      rw [hif] at h2
      have := (mul_lt_mul_iff_of_pos_right hp).mp h2
      linarith
    exact_mod_cast h3
  unfold linspace
  rw [List.mem_map]
  refine ⟨(n + q).toNat, ?_, ?_⟩
  · rw [List.mem_range, htn]
    have : ((2 ^ w : ℕ) : ℤ) = 2 ^ w := by push_cast; rfl
    omega
  · have hcast : (((n + q).toNat : ℕ) : ℚ) = (n : ℚ) + q := by
      have : (((n + q).toNat : ℤ)) = n + q := Int.toNat_of_nonneg hj0
      have h4 : (((n + q).toNat : ℤ) : ℚ) = ((n + q : ℤ) : ℚ) := by rw [this]
      push_cast at h4
      exact_mod_cast h4
    rw [hcast, htn]
    have hstep : (p2 i - p2 (-f) - -p2 i * k) / (((2 ^ w : ℕ) : ℚ) - 1) = p2 (-f) := by
      have hw1 : (2 : ℚ) ≤ 2 ^ w := by
        obtain ⟨v, rfl⟩ : ∃ v, w = v + 1 := ⟨w - 1, by omega⟩
        rw [pow_succ]
        have : (1 : ℚ) ≤ 2 ^ v := one_le_pow₀ (by norm_num)
        linarith
      rw [div_eq_iff (by push_cast; linarith)]
      have : p2 i - p2 (-f) - -p2 i * k = ((1 + k) * p2 (i + f) - 1) * p2 (-f) := by
        rw [hif]; ring
      rw [this, hN]; push_cast; ring
    rw [hstep, ← hq, hif]
    change _ = (n : ℚ) * p2 (-f)
    ring

/-- the sample points are values of the type -/
theorem linspace_isKif {k : ℤ} (hk : k = 0 ∨ k = 1) {i f : ℤ} (hw : 0 < k + i + f) {x : ℚ}
    (hx : x ∈ linspace (-p2 i * k) (p2 i - p2 (-f)) (2 ^ (k + i + f).toNat)) : IsKif k i f x := by
  unfold linspace at hx
  obtain ⟨j, hj, rfl⟩ := List.mem_map.mp hx
  rw [List.mem_range] at hj
  have hp := p2_pos (-f)
  obtain ⟨w, hw'⟩ := Int.eq_ofNat_of_zero_le hw.le
  have htn : (k + i + f).toNat = w := by omega
  rw [htn] at hj ⊢
  have hN : ((1 : ℚ) + k) * p2 (i + f) = 2 ^ w := by
    have : ((2 : ℚ) ^ w) = p2 (w : ℤ) := by rw [p2_natCast]; push_cast; rfl
    rw [this]
    rcases hk with rfl | rfl
    · rw [show (w : ℤ) = i + f by omega]; simp
    · rw [show (w : ℤ) = i + f + 1 by omega, p2_succ]; push_cast; ring
  have hif : p2 i = p2 (i + f) * p2 (-f) := by rw [← p2_add]; congr 1; ring
  have hw1 : (2 : ℚ) ≤ 2 ^ w := by
    have : 2 ^ 1 ≤ 2 ^ w := Nat.pow_le_pow_right (by norm_num) (by omega)
    exact_mod_cast this
  have hstep : (p2 i - p2 (-f) - -p2 i * (k : ℚ)) / (((2 ^ w : ℕ) : ℚ) - 1) = p2 (-f) := by
    push_cast
    rw [div_eq_iff (by linarith), ← hN, hif]; ring
  have hki : ∃ q : ℤ, (k : ℚ) * p2 (i + f) = q := by
    rcases hk with rfl | rfl
    · exact ⟨0, by simp⟩
    · obtain ⟨q, hq, -⟩ := p2_int_of_nonneg (a := i + f) (by omega)
      exact ⟨q, by simp [hq]⟩
  obtain ⟨q, hq⟩ := hki
  rw [hstep]
  have hjq : (j : ℚ) + 1 ≤ 2 ^ w := by exact_mod_cast hj
  refine ⟨⟨j - q, ?_⟩, ?_, ?_⟩
  · change _ = _ * p2 (-f)
    push_cast
    rw [← hq, hif]; ring
  · change -((k : ℚ) * p2 i) ≤ _
    have : (0 : ℚ) ≤ j * p2 (-f) := mul_nonneg (by positivity) hp.le
    linarith
  · change _ < p2 i
    have h1 := mul_le_mul_of_nonneg_right hjq hp.le
    rw [← hN] at h1
    have h2 : (1 + (k : ℚ)) * p2 (i + f) * p2 (-f) = (1 + k) * p2 i := by rw [hif]; ring
    rw [h2] at h1
    linarith

end HGQ
