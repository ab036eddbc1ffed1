import Verif.Props.Narrow
import Verif.Props.Produced2

/-!
Shrinking a wrapping quantizer to the type of its input: exactly when no output changes.
-/

namespace HGQ

open Spec

theorem p2_half {a b : ℤ} (h : a < b) : 2 * p2 a ≤ p2 b := by
  rw [← p2_succ]; exact p2_le_p2 (by omega)

/-- a wrapping quantizer of at most zero bits returns zero -/
theorem gq_wrap_nonpos (s : Bool) {i f : ℤ} (hw : s.toInt + i + f ≤ 0) (R : Rnd) (x : ℚ) : gq s i f R .WRAP x = 0 := by
  rcases eq_or_lt_of_le hw with h0 | h0
  · unfold gq; rw [h0, gfixed_zero_bits]
  unfold gq gfixedQuantizer
  simp only
  obtain ⟨n, hn⟩ := rndMap_int R (x * p2 (s.toInt + i + f - (s.toInt + i)))
  rw [hn]
  have hz : satMap .WRAP (n : ℚ) s.toInt (s.toInt + i + f) = 0 := by
    simp only [satMap, satWRAP]
    obtain ⟨m, hm, -⟩ := p2_int_of_nonneg (a := -(s.toInt + i + f)) (by omega)
    have hpm : p2 (s.toInt + i + f) * p2 (-(s.toInt + i + f)) = 1 := p2_mul_neg _
    have hP : p2 (s.toInt + i + f) = (1 + s.toInt) * p2 (s.toInt + i + f - s.toInt) := by
      cases s
      · simp
      · simp only [toInt_true]
        have := p2_succ (1 + i + f - 1)
        rw [show (1 : ℤ) + i + f - 1 + 1 = 1 + i + f by ring] at this
        rw [this]; norm_num
    set P := p2 (s.toInt + i + f - s.toInt) with hPd
    have hPp : 0 < P := p2_pos _
    have hint : p2 (s.toInt + i + f) ≠ 0 := p2_ne _
    have e1 : P - 1 - -(P - 1 + 1) * (s.toInt : ℚ) + 1 = p2 (s.toInt + i + f) := by rw [hP]; ring
    rw [e1]
    have e2 : (n : ℚ) - -(P - 1 + 1) * (s.toInt : ℚ) = (n * m : ℤ) * p2 (s.toInt + i + f) + s.toInt * P := by
      have : (n : ℚ) = n * (p2 (s.toInt + i + f) * p2 (-(s.toInt + i + f))) := by rw [hpm, mul_one]
      push_cast
      rw [← hm]
      linarith [this]
    rw [e2]
    have hfl : floorMod ((n * m : ℤ) * p2 (s.toInt + i + f) + s.toInt * P) (p2 (s.toInt + i + f)) = s.toInt * P := by
      unfold floorMod
      have hd : ((n * m : ℤ) * p2 (s.toInt + i + f) + s.toInt * P) / p2 (s.toInt + i + f) =
          (n * m : ℤ) + s.toInt * P / p2 (s.toInt + i + f) := by
        rw [add_div, mul_div_assoc, div_self hint, mul_one]
      have hr : ⌊(s.toInt : ℚ) * P / p2 (s.toInt + i + f)⌋ = 0 := by
        rw [hP, Int.floor_eq_iff]
        cases s
        · simp
        · simp only [toInt_true, Int.cast_one, Int.cast_zero, one_mul]
          have : P / ((1 + 1) * P) = 1 / 2 := by field_simp; norm_num
          rw [this]; norm_num
      rw [hd, Int.floor_intCast_add, hr]; push_cast; ring
    rw [hfl]; ring
  rw [hz]; simp

/-- the only value of a type without bits is zero -/
theorem kif_nonpos (s : Bool) {i f : ℤ} (hw : s.toInt + i + f ≤ 0) {y : ℚ} (h : IsKif s.toInt i f y) : y = 0 := by
  obtain ⟨⟨n, hn⟩, h1, h2⟩ := h
  change y = n * p2 (-f) at hn
  change -(_ * p2 i) ≤ _ at h1
  change _ < p2 i at h2
  have hp := p2_pos (-f)
  have hi := p2_pos i
  have hub : n < 1 := by
    by_contra hc
    push Not at hc
    have : (1 : ℚ) ≤ n := by exact_mod_cast hc
    have h3 : p2 i ≤ p2 (-f) := p2_le_p2 (by rcases toInt_cases s with h | h <;> omega)
    nlinarith
  have hlb : -1 < n := by
    by_contra hc
    push Not at hc
    have : (n : ℚ) ≤ -1 := by exact_mod_cast hc
    rcases toInt_cases s with h | h
    · rw [h] at h1; simp only [Int.cast_zero, zero_mul, neg_zero] at h1; nlinarith
    · have h3 : p2 i < p2 (-f) := p2_lt_p2 (by omega)
      rw [h] at h1; simp only [Int.cast_one, one_mul] at h1; nlinarith
  have : n = 0 := by omega
  rw [hn, this]; simp

/-- a wrapping quantizer of any width keeps the values of its type -/
theorem gq_wrap_fix (s : Bool) {i f : ℤ} (R : Rnd) (x : ℚ) (h : IsKif s.toInt i f (rv R f x)) :
    gq s i f R .WRAP x = rv R f x := by
  rcases le_or_gt (s.toInt + i + f) 0 with h0 | h0
  · rw [gq_wrap_nonpos s h0, kif_nonpos s h0 h]
  · exact gq_of_kif s h0.le R .WRAP (by decide) x h

theorem isKif_zero (s : Bool) (i f : ℤ) : IsKif s.toInt i f 0 := by
  refine ⟨⟨0, by simp⟩, ?_, zpow2_pos i⟩
  have := (zpow2_pos i).le
  rcases toInt_cases s with h | h <;> rw [h] <;> push_cast <;> linarith

/-- multiples of the period wrap to zero -/
theorem gq_wrap_mult (s : Bool) {i f : ℤ} (hw : 0 ≤ s.toInt + i + f) (R : Rnd) (x : ℚ) {m : ℤ}
    (h : rv R f x = m * p2 (s.toInt + i)) : gq s i f R .WRAP x = 0 := by
  obtain ⟨a, ha⟩ := gq_wrap s hw R x
  refine kif_mod_unique s (gq_kif s hw R _ x) (isKif_zero s i f) (m - a) ?_
  rw [h] at ha
  push_cast; linarith

/-- the fractional bits of a wrapping quantizer do not matter beyond the rounding -/
theorem gq_wrap_frac (s : Bool) {i f f' : ℤ} (hw : 0 ≤ s.toInt + i + f) (R : Rnd) (x : ℚ)
    (hv : rv R f' x = rv R f x) : gq s i f' R .WRAP x = gq s i f R .WRAP x := by
  rcases le_or_gt (s.toInt + i + f') 0 with h0 | h0
  · rw [gq_wrap_nonpos s h0]
    obtain ⟨n, hn⟩ := rv_grid R f' x
    obtain ⟨m, hm, -⟩ := p2_int_of_nonneg (a := -(s.toInt + i + f')) (by omega)
    refine (gq_wrap_mult s hw R x (m := n * m) ?_).symm
    have : p2 (-f') = p2 (-(s.toInt + i + f')) * p2 (s.toInt + i) := by rw [← p2_add]; congr 1; ring
    rw [← hv, hn, this, hm]; push_cast; ring
  · obtain ⟨a, ha⟩ := gq_wrap s h0.le R x
    obtain ⟨b, hb⟩ := gq_wrap s hw R x
    refine kif_mod_unique s (gq_kif s h0.le R _ x) (gq_kif s hw R _ x) (b - a) ?_
    rw [hv] at ha
    push_cast; linarith

/-- what rounds to `n` steps -/
theorem rv_trn_eq (f n : ℤ) {x : ℚ} (h1 : n * p2 (-f) ≤ x) (h2 : x < (n + 1) * p2 (-f)) : rv .TRN f x = n * p2 (-f) := by
  unfold rv
  have : rndMap .TRN (x * p2 f) = (⌊x * p2 f⌋ : ℚ) := rfl
  rw [this]
  have hp := p2_pos f
  have hm := p2_neg_mul f
  have : ⌊x * p2 f⌋ = n := by
    rw [Int.floor_eq_iff]
    have k1 := mul_le_mul_of_nonneg_right h1 hp.le
    have k2 := mul_lt_mul_of_pos_right h2 hp
    rw [mul_assoc, hm, mul_one] at k1 k2
    constructor <;> linarith
  rw [this]

theorem rv_rnd_eq (f n : ℤ) {x : ℚ} (h1 : (n - 1 / 2) * p2 (-f) ≤ x) (h2 : x < (n + 1 / 2) * p2 (-f)) :
    rv .RND f x = n * p2 (-f) := by
  unfold rv
  have : rndMap .RND (x * p2 f) = (⌊x * p2 f + 1 / 2⌋ : ℚ) := rfl
  rw [this]
  have hp := p2_pos f
  have hm := p2_neg_mul f
  have : ⌊x * p2 f + 1 / 2⌋ = n := by
    rw [Int.floor_eq_iff]
    have k1 := mul_le_mul_of_nonneg_right h1 hp.le
    have k2 := mul_lt_mul_of_pos_right h2 hp
    rw [mul_assoc, hm, mul_one] at k1 k2
    constructor <;> linarith
  rw [this]

theorem rndMap_small (R : Rnd) {y : ℚ} (h0 : 0 ≤ y) (h1 : y < 1 / 2) : rndMap R y = 0 := by
  have f1 : ⌊y⌋ = 0 := by rw [Int.floor_eq_iff]; push_cast; constructor <;> linarith
  have f2 : ⌊y + 1 / 2⌋ = 0 := by rw [Int.floor_eq_iff]; push_cast; constructor <;> linarith
  have f3 : ⌊-y + 1 / 2⌋ = 0 := by rw [Int.floor_eq_iff]; push_cast; constructor <;> linarith
  cases R
  · show ((⌊y⌋ : ℤ) : ℚ) = 0
    rw [f1]; rfl
  · show ((⌊y + 1 / 2⌋ : ℤ) : ℚ) = 0
    rw [f2]; rfl
  · show ((tfRound y : ℤ) : ℚ) = 0
    unfold tfRound
    simp only [f1, Int.cast_zero, sub_zero, if_pos h1]
  · show ((⌊|y|⌋ : ℤ) : ℚ) * tfSign y = 0
    rw [abs_of_nonneg h0, f1]; simp
  · show -((⌊-|y| + 1 / 2⌋ : ℤ) : ℚ) * tfSign y = 0
    rw [abs_of_nonneg h0, f3]; simp
  · show -((⌊-y + 1 / 2⌋ : ℤ) : ℚ) = 0
    rw [f3]; simp
  · show ((⌊|y| + 1 / 2⌋ : ℤ) : ℚ) * tfSign y = 0
    rw [abs_of_nonneg h0, f2]; simp

/-- values below half a step above zero round to zero, whatever the mode -/
theorem rv_small (R : Rnd) {f : ℤ} {x : ℚ} (h0 : 0 ≤ x) (h1 : 2 * x < p2 (-f)) : rv R f x = 0 := by
  unfold rv
  have hp := p2_pos f
  have hm := p2_neg_mul f
  rw [rndMap_small R (by positivity) (by nlinarith), zero_mul]

theorem rv_neg_small (R : Rnd) {i0 f : ℤ} (h : i0 + f < 0) : rv R f (-p2 i0) = 0 ∨ rv R f (-p2 i0) = -p2 (-f) := by
  obtain ⟨n, hn⟩ := rv_grid R f (-p2 i0)
  have hp := p2_pos (-f)
  have a := rv_mono R f (x := -p2 (-f)) (y := -p2 i0) (by have := p2_le_p2 (a := i0) (b := -f) (by omega); linarith)
  rw [rv_of_grid R f ⟨-1, by push_cast; ring⟩, hn] at a
  have b := rv_mono R f (x := -p2 i0) (y := 0) (by have := p2_pos i0; linarith)
  rw [rv_of_grid R f (x := 0) ⟨0, by simp⟩, hn] at b
  have h1 : -1 ≤ n := by
    by_contra hc
    push Not at hc
    have : (n : ℚ) < -1 := by exact_mod_cast hc
    nlinarith
  have h2 : n ≤ 0 := by
    by_contra hc
    push Not at hc
    have : (0 : ℚ) < n := by exact_mod_cast hc
    nlinarith
  have : n = 0 ∨ n = -1 := by omega
  rcases this with rfl | rfl
  · left; rw [hn]; simp
  · right; rw [hn]; push_cast; ring

/-- the largest value of a type -/
theorem kif_le_max {k i f : ℤ} {x : ℚ} (hw : 0 ≤ i + f) (h : IsKif k i f x) : x ≤ p2 i - p2 (-f) := by
  obtain ⟨⟨n, hn⟩, -, h2⟩ := h
  change x = n * p2 (-f) at hn
  change _ < p2 i at h2
  obtain ⟨m, hm⟩ := grid_p2 hw
  have hp := p2_pos (-f)
  rw [hm, hn] at h2
  have : (n : ℚ) < m := by
    by_contra hc; push Not at hc
    nlinarith
  have : n + 1 ≤ m := by exact_mod_cast this
  have : (n : ℚ) + 1 ≤ m := by exact_mod_cast this
  rw [hm, hn]
  nlinarith

/-- what must hold for the shrunk wrapping quantizer to keep every output -/
def WrapCond (s0 s : Bool) (i0 f0 i f : ℤ) (R : Rnd) : Prop :=
  if s0 = s then s = true → f < f0 → i0 + 1 + f < 0 → rv R f (-p2 i0) = 0
  else if s = true then
    i0 < i ∨ i0 = i ∧ (f0 ≤ f ∨ rv R f (p2 i - p2 (-f0)) < p2 i) ∨ i < i0 ∧ f0 + i < 0
  else i ≤ i0 ∨ i0 + 1 = i ∧ f < f0 ∨ f < f0 ∧ rv R f (-p2 i0) = 0

/-- rounding of a value of the input type: zero if all of it lies below half a step, otherwise within one more bit -/
theorem rv_range (s0 : Bool) {i0 f0 f : ℤ} (R : Rnd) {x : ℚ} (hx : IsKif s0.toInt i0 f0 x)
    (hc : s0 = true → i0 + 1 + f < 0 → rv R f (-p2 i0) = 0) : IsKif s0.toInt (i0 + 1) f (rv R f x) := by
  obtain ⟨gx, lx, ux⟩ := hx
  change -(_ * p2 i0) ≤ _ at lx
  change _ < p2 i0 at ux
  have hpi := p2_pos i0
  have hpf := p2_pos (-f)
  have hp1 : p2 (i0 + 1) = 2 * p2 i0 := p2_succ i0
  refine ⟨rv_grid R f x, ?_, ?_⟩
  · show -(_ * p2 (i0 + 1)) ≤ _
    rcases hs : s0 with _ | _
    · subst hs
      simp only [toInt_false, Int.cast_zero, zero_mul, neg_zero] at lx ⊢
      have := rv_mono R f lx
      rwa [rv_of_grid R f (x := 0) ⟨0, by simp⟩] at this
    · subst hs
      simp only [toInt_true, Int.cast_one, one_mul] at lx ⊢
      have m := rv_mono R f lx
      rcases le_or_gt 0 (i0 + f) with h | h
      · rw [rv_of_grid R f (grid_neg (grid_p2 h))] at m; linarith
      · rcases lt_or_ge (i0 + 1 + f) 0 with h' | h'
        · rw [hc rfl h'] at m; linarith
        · have e : i0 + 1 = -f := by omega
          rw [e]
          rcases rv_neg_small R h with h'' | h'' <;> rw [h''] at m <;> linarith
  · show _ < p2 (i0 + 1)
    rcases le_or_gt 0 (i0 + f) with h | h
    · have m := rv_mono R f ux.le
      rw [rv_of_grid R f (grid_p2 h)] at m
      linarith
    · have h3 : p2 (i0 + 1) ≤ p2 (-f) := p2_le_p2 (by omega)
      rcases le_or_gt 0 x with h0 | h0
      · rw [rv_small R h0 (by linarith)]; linarith
      · have m := rv_mono R f h0.le
        rw [rv_of_grid R f (x := 0) ⟨0, by simp⟩] at m
        linarith

theorem wrap_iff (s0 s : Bool) (i0 f0 i f : ℤ) (R : Rnd) (hw : 1 ≤ s.toInt + i + f) (hw0 : 1 ≤ s0.toInt + i0 + f0)
    (f' iret : ℤ) (hf' : f' = min f0 f) (hiret : iret = if i0 ≤ i ∧ f0 > f' then min i0 i + 1 else min i0 i) :
    (∀ x, IsKif s0.toInt i0 f0 x →
      gq (s0 && s) (storedI s (s0 && s) i iret) f' R .WRAP x = gq s i f R .WRAP x) ↔ WrapCond s0 s i0 f0 i f R := by
  have hv : ∀ x, IsKif s0.toInt i0 f0 x → rv R f' x = rv R f x := by
    intro x hx
    rcases le_or_gt f0 f with h | h
    · rw [hf', min_eq_left h, rv_of_grid R f0 hx.1, rv_of_grid R f (grid_refine h hx.1)]
    · rw [hf', min_eq_right h.le]
  have hin : ∀ (s' : Bool) (i' : ℤ) x, IsKif s0.toInt i0 f0 x → IsKif s'.toInt i' f' (rv R f x) →
      IsKif s.toInt i f (rv R f x) → gq s' i' f' R .WRAP x = gq s i f R .WRAP x := by
    intro s' i' x hx k1 k2
    rw [gq_wrap_fix s' R x (by rw [hv x hx]; exact k1), gq_wrap_fix s R x k2, hv x hx]
  have hfr : ∀ x, IsKif s0.toInt i0 f0 x → gq s i f' R .WRAP x = gq s i f R .WRAP x :=
    fun x hx => gq_wrap_frac s (by omega) R x (hv x hx)
  have hex : f0 ≤ f → ∀ x, IsKif s0.toInt i0 f0 x → rv R f x = x :=
    fun h x hx => rv_of_grid R f (grid_refine h hx.1)
  have same : s0 = s → (s = true → f < f0 → i0 + 1 + f < 0 → rv R f (-p2 i0) = 0) →
      ∀ x, IsKif s0.toInt i0 f0 x → gq s (storedI s s i iret) f' R .WRAP x = gq s i f R .WRAP x := by
    rintro rfl hc x hx
    have est : storedI s0 s0 i iret = min i iret := by unfold storedI; rw [if_pos rfl]
    rw [est]
    rcases le_or_gt i0 i with hi | hi
    · rcases le_or_gt f0 f with hf | hf
      · have ef : f' = f0 := by omega
        have ei : min i iret = i0 := by rw [hiret, if_neg (by omega)]; omega
        rw [ei]
        refine hin s0 i0 x hx ?_ ?_
        · rw [hex hf x hx, ef]; exact hx
        · rw [hex hf x hx]
          exact isKif_mono hx (by rcases toInt_cases s0 with h | h <;> omega) le_rfl hi hf
      · have ef : f' = f := by omega
        have ei : min i iret = min i (i0 + 1) := by rw [hiret, if_pos (by omega)]; omega
        rw [ei, ef]
        rcases hi.eq_or_lt with rfl | hlt
        · rw [min_eq_left (by omega)]
        · rw [min_eq_right (by omega)]
          have k := rv_range s0 R hx fun a b => hc a hf b
          have := hin s0 (i0 + 1) x hx (by rw [ef]; exact k)
            (isKif_mono k (by rcases toInt_cases s0 with h | h <;> omega) le_rfl (by omega) le_rfl)
          rwa [ef] at this
    · have ei : min i iret = i := by rw [hiret, if_neg (by omega)]; omega
      rw [ei]
      exact hfr x hx
  have hpi := p2_pos i
  have hpi0 := p2_pos i0
  have hpf := p2_pos (-f)
  have hpf0 := p2_pos (-f0)
  unfold WrapCond
  cases s0 <;> cases s
  · simp only [Bool.and_false, if_true, Bool.false_eq_true, false_implies, iff_true]
    exact same rfl (by simp)
  · simp only [Bool.false_and, Bool.false_eq_true, if_false, if_true]
    have est : storedI true false i iret = iret := by unfold storedI; rw [if_neg (by simp)]
    rw [est]
    simp only [toInt_true, toInt_false] at *
    have nn : ∀ x, IsKif 0 i0 f0 x → 0 ≤ rv R f x := by
      intro x hx
      have h0 : 0 ≤ x := by simpa using hx.2.1
      have := rv_mono R f h0
      rwa [rv_of_grid R f (x := 0) ⟨0, by simp⟩] at this
    have up : ∀ x j, IsKif 0 i0 f0 x → rv R f x < p2 j → IsKif 1 j f (rv R f x) := by
      intro x j hx hj
      refine ⟨rv_grid R f x, ?_, hj⟩
      have := nn x hx
      have := zpow2_pos j
      push_cast; linarith
    constructor
    · intro H
      by_contra hc
      push Not at hc
      obtain ⟨c1, c2, c3⟩ := hc
      rcases c1.eq_or_lt with heq | hlt
      · subst heq
        obtain ⟨d1, d2⟩ := c2 rfl
        have hx : IsKif 0 i f0 (p2 i - p2 (-f0)) := by
          refine ⟨?_, ?_, ?_⟩
          · obtain ⟨n, hn⟩ := grid_p2 (i := i) (f := f0) (by omega)
            exact ⟨n - 1, by rw [hn]; push_cast; rw [sub_mul, one_mul]; rfl⟩
          · have := p2_le_p2 (a := -f0) (b := i) (by omega)
            simp only [Int.cast_zero, zero_mul, neg_zero]; linarith
          · show _ < p2 i
            linarith
        have hr : rv R f (p2 i - p2 (-f0)) = p2 i := by
          apply le_antisymm _ d2
          have := rv_mono R f (x := p2 i - p2 (-f0)) (y := p2 i) (by linarith)
          rwa [rv_of_grid R f (grid_p2 (by omega))] at this
        have ef : f' = f := by omega
        have ei : iret = i + 1 := by rw [hiret, if_pos (by omega)]; omega
        have := H _ hx
        rw [ef, ei, gq_wrap_fix false R _ (by
          rw [hr]
          refine ⟨grid_p2 (by omega), ?_, ?_⟩
          · have := zpow2_pos (i + 1)
            simp only [toInt_false, Int.cast_zero, zero_mul, neg_zero]; exact hpi.le
          · exact p2_lt_p2 (by omega)), hr] at this
        have h2 := (gq_kif true (i := i) (f := f) (by rw [toInt_true]; omega) R .WRAP (p2 i - p2 (-f0))).2.2
        change _ < p2 i at h2
        linarith
      · have c3' := c3 hlt
        have hx : IsKif 0 i0 f0 (p2 i) := by
          refine ⟨grid_p2 (by omega), ?_, p2_lt_p2 hlt⟩
          simp only [Int.cast_zero, zero_mul, neg_zero]; exact hpi.le
        have hr : rv R f (p2 i) = p2 i := rv_of_grid R f (grid_p2 (by omega))
        have hb : gq true i f R .WRAP (p2 i) = -p2 i := by
          obtain ⟨a, ha⟩ := gq_wrap true (i := i) (f := f) (by rw [toInt_true]; omega) R (p2 i)
          refine kif_mod_unique true (gq_kif true (f := f) (by rw [toInt_true]; omega) R _ _)
            (f' := f) ⟨grid_neg (grid_p2 (by omega)), ?_, ?_⟩ (1 - a) ?_
          · simp only [toInt_true, Int.cast_one, one_mul]; exact le_rfl
          · show _ < p2 i
            linarith
          · rw [hr, toInt_true, show (1 : ℤ) + i = i + 1 by ring, p2_succ] at ha
            rw [toInt_true, show (1 : ℤ) + i = i + 1 by ring, p2_succ]
            push_cast; linarith
        have ei : iret = i := by rw [hiret, if_neg (by omega)]; omega
        have := H _ hx
        rw [hb, ei] at this
        have h2 := (gq_kif false (i := i) (f := f') (by rw [toInt_false]; omega) R .WRAP (p2 i)).2.1
        rw [this] at h2
        simp only [toInt_false, Int.cast_zero, zero_mul, neg_zero] at h2
        linarith
    · rintro (h | ⟨rfl, h⟩ | ⟨h1, h2⟩) x hx
      · rcases le_or_gt f0 f with hf | hf
        · have ei : iret = i0 := by rw [hiret, if_neg (by omega)]; omega
          have ef : f' = f0 := by omega
          rw [ei]
          refine hin false i0 x hx ?_ ?_
          · rw [hex hf x hx, ef]; exact hx
          · rw [hex hf x hx]
            exact isKif_mono hx (by omega) (by omega) h.le hf
        · have ei : iret = i0 + 1 := by rw [hiret, if_pos (by omega)]; omega
          have ef : f' = f := by omega
          have k := rv_range false (f := f) R hx (by simp)
          rw [ei]
          refine hin false (i0 + 1) x hx (by rw [ef]; exact k) ?_
          exact isKif_mono k (by rw [toInt_false]) (by rw [toInt_false]; omega) (by omega) le_rfl
      · rcases le_or_gt f0 f with hf | hf
        · have ei : iret = i0 := by rw [hiret, if_neg (by omega)]; omega
          have ef : f' = f0 := by omega
          rw [ei]
          refine hin false i0 x hx ?_ ?_
          · rw [hex hf x hx, ef]; exact hx
          · rw [hex hf x hx]
            exact isKif_mono hx (by omega) (by omega) le_rfl hf
        · have h' := h.resolve_left (by omega)
          have ei : iret = i0 + 1 := by rw [hiret, if_pos (by omega)]; omega
          have ef : f' = f := by omega
          have k := rv_range false (f := f) R hx (by simp)
          rw [ei]
          refine hin false (i0 + 1) x hx (by rw [ef]; exact k) ?_
          apply up x i0 hx
          exact lt_of_le_of_lt (rv_mono R f (kif_le_max (by omega) hx)) h'
      · have ei : iret = i := by rw [hiret, if_neg (by omega)]; omega
        have ef : f' = f0 := by omega
        rw [ei, ef, gq_wrap_nonpos false (by rw [toInt_false]; omega)]
        obtain ⟨n, hn⟩ := hx.1
        change x = n * p2 (-f0) at hn
        obtain ⟨m, hm, -⟩ := p2_int_of_nonneg (a := -f0 - (1 + i)) (by omega)
        refine (gq_wrap_mult true (by rw [toInt_true]; omega) R x (m := n * m) ?_).symm
        have : p2 (-f0) = p2 (-f0 - (1 + i)) * p2 (1 + i) := by rw [← p2_add]; congr 1; ring
        rw [hex (by omega) x hx, hn, this, hm, toInt_true]; push_cast; ring
  · simp only [Bool.and_false, Bool.true_eq_false, if_false, Bool.false_eq_true]
    have est : storedI false false i iret = min i iret := by unfold storedI; rw [if_pos rfl]
    rw [est]
    simp only [toInt_true, toInt_false] at *
    constructor
    · intro H
      by_contra hc
      push Not at hc
      obtain ⟨c1, c2, c3⟩ := hc
      obtain ⟨x, hx, hr⟩ : ∃ x, IsKif 1 i0 f0 x ∧ rv R f x = -p2 (-f') := by
        rcases le_or_gt f0 f with hf | hf
        · refine ⟨-p2 (-f0), ⟨⟨-1, by push_cast; rw [neg_one_mul]; rfl⟩, ?_, ?_⟩, ?_⟩
          · have := p2_le_p2 (a := -f0) (b := i0) (by omega)
            simp only [Int.cast_one, one_mul]
            show -p2 i0 ≤ _
            linarith
          · show _ < p2 i0
            linarith
          · rw [rv_of_grid R f (grid_refine hf ⟨-1, by push_cast; ring⟩)]
            rw [show f' = f0 by omega]
        · rw [show f' = f by omega]
          rcases le_or_gt 0 (i0 + f) with h | h
          · refine ⟨-p2 (-f), ⟨grid_refine hf.le ⟨-1, by push_cast; ring⟩, ?_, ?_⟩,
              rv_of_grid R f ⟨-1, by push_cast; ring⟩⟩
            · have := p2_le_p2 (a := -f) (b := i0) (by omega)
              simp only [Int.cast_one, one_mul]
              show -p2 i0 ≤ _
              linarith
            · show _ < p2 i0
              linarith
          · refine ⟨-p2 i0, ⟨grid_neg (grid_p2 (by omega)), ?_, ?_⟩, (rv_neg_small R h).resolve_left (c3 hf)⟩
            · simp only [Int.cast_one, one_mul]; exact le_rfl
            · show _ < p2 i0
              linarith
      have hfi : -f' < i := by omega
      have h2 : 2 * p2 (-f') ≤ p2 i := p2_half hfi
      have hpf' := p2_pos (-f')
      have hb : gq false i f R .WRAP x = p2 i - p2 (-f') := by
        obtain ⟨a, ha⟩ := gq_wrap false (i := i) (f := f) (by rw [toInt_false]; omega) R x
        refine kif_mod_unique false (gq_kif false (f := f) (by rw [toInt_false]; omega) R _ _)
          (f' := f') ⟨?_, ?_, ?_⟩ (-1 - a) ?_
        · obtain ⟨n, hn⟩ := grid_p2 (i := i) (f := f') (by omega)
          exact ⟨n - 1, by rw [hn]; push_cast; rw [sub_mul, one_mul]; rfl⟩
        · simp only [toInt_false, Int.cast_zero, zero_mul, neg_zero]; linarith
        · show _ < p2 i
          linarith
        · rw [hr, toInt_false, zero_add] at ha
          rw [toInt_false, zero_add]
          push_cast; linarith
      have hst : min i iret < i := by
        rw [hiret]; split_ifs <;> omega
      have := H x hx
      rw [hb] at this
      rcases le_or_gt (min i iret + f') 0 with h0 | h0
      · rw [gq_wrap_nonpos false (by rw [toInt_false]; omega)] at this
        linarith
      · have u := (gq_kif false (i := min i iret) (f := f') (by rw [toInt_false]; omega) R .WRAP x).2.2
        change _ < p2 (min i iret) at u
        have := p2_half hst
        linarith
    · rintro (h | ⟨h1, h2⟩ | ⟨h1, h2⟩) x hx
      · have ei : min i iret = i := by rw [hiret]; split_ifs <;> omega
        rw [ei]; exact hfr x hx
      · have ei : min i iret = i := by rw [hiret, if_pos (by omega)]; omega
        rw [ei]; exact hfr x hx
      · have hi : i0 + f < 0 := by
          by_contra hc
          rw [rv_of_grid R f (grid_neg (grid_p2 (by omega)))] at h2
          linarith
        have hz : rv R f x = 0 := by
          obtain ⟨-, lx, ux⟩ := hx
          change _ < p2 i0 at ux
          simp only [Int.cast_one, one_mul] at lx
          change -p2 i0 ≤ _ at lx
          rcases le_or_gt 0 x with h0 | h0
          · have := p2_half (a := i0) (b := -f) (by omega)
            exact rv_small R h0 (by linarith)
          · apply le_antisymm
            · have m := rv_mono R f h0.le
              rwa [rv_of_grid R f (x := 0) ⟨0, by simp⟩] at m
            · have m := rv_mono R f lx
              rwa [h2] at m
        refine hin false _ x hx ?_ ?_ <;> rw [hz] <;> exact isKif_zero false _ _
  · simp only [Bool.and_self, if_true, true_implies]
    constructor
    · intro H h1 h2
      by_contra hc
      simp only [toInt_true] at *
      have hr := (rv_neg_small R (i0 := i0) (f := f) (by omega)).resolve_left hc
      have hx : IsKif 1 i0 f0 (-p2 i0) := by
        refine ⟨grid_neg (grid_p2 (by omega)), ?_, ?_⟩
        · simp only [Int.cast_one, one_mul]; exact le_rfl
        · show _ < p2 i0
          linarith
      have est : storedI true true i iret = i0 + 1 := by
        unfold storedI; rw [if_pos rfl, hiret, if_pos (by omega)]; omega
      have := H _ hx
      rw [est, show f' = f by omega, gq_wrap_nonpos true (by rw [toInt_true]; omega),
        gq_wrap_fix true R _ (by
          rw [hr]
          refine ⟨⟨-1, by push_cast; rw [neg_one_mul]; rfl⟩, ?_, ?_⟩
          · have := p2_le_p2 (a := -f) (b := i) (by omega)
            simp only [toInt_true, Int.cast_one, one_mul]
            show -p2 i ≤ _
            linarith
          · show _ < p2 i
            linarith), hr] at this
      linarith
    · intro h
      exact same rfl fun _ => h

end HGQ
