import Verif.Lemmas.NarrowIff

/-!
Shrinking a saturating quantizer to the type of its input: exactly when no output changes.
-/

namespace HGQ

open Spec

/-- an unsigned saturating quantizer of at most zero bits returns zero -/
theorem gq_sat_false_nonpos {i f : ℤ} (hw : i + f ≤ 0) (R : Rnd) (x : ℚ) : gq false i f R .SAT x = 0 := by
  rcases eq_or_lt_of_le hw with h0 | h0
  · unfold gq
    rw [show false.toInt + i + f = 0 by rw [toInt_false]; omega, gfixed_zero_bits]
  unfold gq gfixedQuantizer
  simp only [toInt_false, zero_add]
  have hz : ∀ v, satMap .SAT v 0 (i + f) = 0 := by
    intro v
    have h1 : p2 (i + f) < p2 0 := p2_lt_p2 h0
    rw [p2_zero] at h1
    show clipByValue _ _ _ = 0
    unfold clipByValue
    simp only [sub_zero, Int.cast_zero, mul_zero]
    exact max_eq_right ((min_le_right _ _).trans (by linarith))
  rw [hz]; simp

/-- a signed saturating quantizer of less than zero bits returns its lower bound -/
theorem gq_sat_true_neg {i f : ℤ} (hw : 1 + i + f < 0) (R : Rnd) (x : ℚ) : gq true i f R .SAT x = -p2 i := by
  unfold gq gfixedQuantizer
  simp only [toInt_true]
  have e : 1 + i + f - (1 + i) = f := by ring
  rw [e]
  obtain ⟨n, hn⟩ := rndMap_int R (x * p2 f)
  rw [hn]
  have h2 : 2 * p2 (i + f) ≤ p2 0 := p2_half (by omega)
  rw [p2_zero] at h2
  have h4 : 2 * p2 (i + f) ≤ p2 (-1) := p2_half (by omega)
  have h5 : 2 * p2 (-1) ≤ p2 0 := p2_half (by omega)
  rw [p2_zero] at h5
  have hz : satMap .SAT (n : ℚ) 1 (1 + i + f) = -p2 (i + f) := by
    show clipByValue _ _ _ = _
    unfold clipByValue
    rw [show 1 + i + f - 1 = i + f by ring]
    have : -(p2 (i + f) - 1 + 1) * ((1 : ℤ) : ℚ) = -p2 (i + f) := by push_cast; ring
    rw [this]
    exact max_eq_right ((min_le_right _ _).trans (by linarith))
  have hp : p2 (i + f) = p2 i * p2 f := p2_add _ _
  have hb : 1 + i + f ≠ 0 := by omega
  rw [hz]
  simp only [hb, ne_eq, not_false_eq_true, if_true]
  rw [mul_one, hp, ← neg_mul, mul_div_assoc, div_self (p2_ne f), mul_one]

theorem gq_sat_true_zero {i f : ℤ} (hw : 1 + i + f = 0) (R : Rnd) (x : ℚ) : gq true i f R .SAT x = 0 := by
  unfold gq
  rw [show true.toInt + i + f = 0 by rw [toInt_true]; omega, gfixed_zero_bits]

/-- what must hold for the shrunk saturating quantizer to keep every output -/
def SatCond (s0 s : Bool) (i0 f0 i f : ℤ) (R : Rnd) : Prop :=
  if s0 = s then ¬(f0 < f ∧ i < i0) ∧
    (s = true → f < f0 → 0 ≤ i0 + 2 + f ∧ (0 ≤ i0 + 1 + f ∨ rv R f (-p2 i0) = 0))
  else if s = true then (¬(f0 < f ∧ i < i0) ∨ i + f = 0) ∧ (i0 = i → f < f0 → rv R f (p2 i - p2 (-f0)) < p2 i)
  else ¬(f0 < f ∧ i < i0) ∨ i0 + f0 = 0

/-- a value above the range of a saturating quantizer -/
theorem gq_sat_above (s : Bool) {i f : ℤ} (hw : 1 ≤ s.toInt + i + f) (R : Rnd) {x : ℚ} (h : p2 i ≤ rv R f x) :
    gq s i f R .SAT x = p2 i - p2 (-f) := by
  rw [gq_sat s hw]
  have := p2_pos i
  have := p2_pos (-f)
  apply min_eq_right
  refine le_trans ?_ (le_max_left _ _)
  linarith

theorem sat_iff (s0 s : Bool) (i0 f0 i f : ℤ) (R : Rnd) (hw : 1 ≤ s.toInt + i + f) (hw0 : 1 ≤ s0.toInt + i0 + f0)
    (f' iret : ℤ) (hf' : f' = min f0 f) (hiret : iret = if i0 ≤ i ∧ f0 > f' then min i0 i + 1 else min i0 i) :
    (∀ x, IsKif s0.toInt i0 f0 x →
      gq (s0 && s) (storedI s (s0 && s) i iret) f' R .SAT x = gq s i f R .SAT x) ↔ SatCond s0 s i0 f0 i f R := by
  have hv : ∀ x, IsKif s0.toInt i0 f0 x → rv R f' x = rv R f x := by
    intro x hx
    rcases le_or_gt f0 f with h | h
    · rw [hf', min_eq_left h, rv_of_grid R f0 hx.1, rv_of_grid R f (grid_refine h hx.1)]
    · rw [hf', min_eq_right h.le]
  have hin : ∀ (s' : Bool) (i' : ℤ) x, IsKif s0.toInt i0 f0 x → (s' = true → 0 ≤ s'.toInt + i' + f') →
      IsKif s'.toInt i' f' (rv R f x) →
      IsKif s.toInt i f (rv R f x) → gq s' i' f' R .SAT x = gq s i f R .SAT x := by
    intro s' i' x hx hw' k1 k2
    rw [gq_of_kif s (by omega) R .SAT (by decide) x k2]
    rcases le_or_gt 0 (s'.toInt + i' + f') with h0 | h0
    · rw [gq_of_kif s' h0 R .SAT (by decide) x (by rw [hv x hx]; exact k1), hv x hx]
    · cases s'
      · rw [kif_nonpos false h0.le k1, gq_sat_false_nonpos (by rw [toInt_false] at h0; omega)]
      · have := hw' rfl; omega
  have hex : f0 ≤ f → ∀ x, IsKif s0.toInt i0 f0 x → rv R f x = x :=
    fun h x hx => rv_of_grid R f (grid_refine h hx.1)
  have hneg : ∀ i' f'' x, rv R f'' x ≤ 0 → gq false i' f'' R .SAT x = 0 := by
    intro i' f'' x h
    rcases le_or_gt (i' + f'') 0 with h0 | h0
    · exact gq_sat_false_nonpos h0 R x
    · exact gq_sat_nonpos h0.le R x h
  have same : s0 = s → (¬(f0 < f ∧ i < i0) ∧
      (s = true → f < f0 → 0 ≤ i0 + 2 + f ∧ (0 ≤ i0 + 1 + f ∨ rv R f (-p2 i0) = 0))) →
      ∀ x, IsKif s0.toInt i0 f0 x → gq s (storedI s s i iret) f' R .SAT x = gq s i f R .SAT x := by
    rintro rfl ⟨hA, hc⟩ x hx
    have est : storedI s0 s0 i iret = min i iret := by unfold storedI; rw [if_pos rfl]
    rw [est]
    rcases le_or_gt i0 i with hi | hi
    · rcases le_or_gt f0 f with hf | hf
      · have ef : f' = f0 := by omega
        have ei : min i iret = i0 := by rw [hiret, if_neg (by omega)]; omega
        rw [ei]
        refine hin s0 i0 x hx (by omega) ?_ ?_
        · rw [hex hf x hx, ef]; exact hx
        · rw [hex hf x hx]
          exact isKif_mono hx (by rcases toInt_cases s0 with h | h <;> omega) le_rfl hi hf
      · have ef : f' = f := by omega
        have ei : min i iret = min i (i0 + 1) := by rw [hiret, if_pos (by omega)]; omega
        rw [ei, ef]
        rcases hi.eq_or_lt with rfl | hlt
        · rw [min_eq_left (by omega)]
        · rw [min_eq_right (by omega)]
          have k := rv_range s0 (f := f) R hx fun a b => (hc a hf).2.resolve_left (by omega)
          have := hin s0 (i0 + 1) x hx (by rintro rfl; have := (hc rfl hf).1; rw [toInt_true]; omega)
            (by rw [ef]; exact k)
            (isKif_mono k (by rcases toInt_cases s0 with h | h <;> omega) le_rfl (by omega) le_rfl)
          rwa [ef] at this
    · have ei : min i iret = i := by rw [hiret, if_neg (by omega)]; omega
      rw [ei, show f' = f by omega]
  -- the value that shows the loss of fractional bits
  have lost : f0 < f → i < i0 → 1 ≤ i0 + f0 → ∀ s' : Bool, (s' = false ∧ 1 ≤ i + f ∨ 1 ≤ s'.toInt + i + f0) →
      ∃ x, IsKif s0.toInt i0 f0 x ∧ gq s' i f0 R .SAT x ≠ gq s i f R .SAT x := by
    intro h1 h2 h3 s' h4
    have g : ∃ n : ℤ, p2 (i0 - 1) = n * p2 (-f0) := grid_p2 (by omega)
    have hp := p2_pos (i0 - 1)
    have hl : p2 i ≤ p2 (i0 - 1) := p2_le_p2 (by omega)
    refine ⟨p2 (i0 - 1), ⟨g, ?_, p2_lt_p2 (by omega)⟩, ?_⟩
    · have := zpow2_pos i0
      rcases toInt_cases s0 with h | h <;> rw [h] <;> push_cast <;> linarith
    · rw [gq_sat_above s hw R (by rw [rv_of_grid R f (grid_refine h1.le g)]; exact hl)]
      rcases le_or_gt 1 (s'.toInt + i + f0) with h5 | h5
      · rw [gq_sat_above s' h5 R (by rw [rv_of_grid R f0 g]; exact hl)]
        have := p2_lt_p2 (a := -f) (b := -f0) (by omega)
        intro h; linarith
      · obtain ⟨rfl, h6⟩ := h4.resolve_right (by omega)
        rw [toInt_false] at h5
        rw [gq_sat_false_nonpos (by omega)]
        have := p2_lt_p2 (a := -f) (b := i) (by omega)
        intro h; linarith
  have hpi := p2_pos i
  have hpi0 := p2_pos i0
  have hpf := p2_pos (-f)
  have hpf0 := p2_pos (-f0)
  unfold SatCond
  cases s0 <;> cases s
  · simp only [Bool.and_false, if_true]
    constructor
    · intro H
      refine ⟨?_, by simp⟩
      rintro ⟨h1, h2⟩
      rw [toInt_false] at hw hw0
      obtain ⟨x, hx, hn⟩ := lost h1 h2 (by omega) false (.inl ⟨rfl, by omega⟩)
      have est : storedI false false i iret = i := by
        unfold storedI; rw [if_pos rfl, hiret, if_neg (by omega)]; omega
      have := H x hx
      rw [est, show f' = f0 by omega] at this
      exact hn this
    · exact same rfl
  · simp only [Bool.false_and, Bool.false_eq_true, if_false, if_true]
    have est : storedI true false i iret = iret := by unfold storedI; rw [if_neg (by simp)]
    rw [est]
    rw [toInt_true] at hw
    rw [toInt_false] at hw0
    have nn : ∀ x, IsKif false.toInt i0 f0 x → 0 ≤ rv R f x := by
      intro x hx
      have h0 : 0 ≤ x := by simpa using hx.2.1
      have := rv_mono R f h0
      rwa [rv_of_grid R f (x := 0) ⟨0, by simp⟩] at this
    have up : ∀ x j, IsKif false.toInt i0 f0 x → rv R f x < p2 j → IsKif true.toInt j f (rv R f x) := by
      intro x j hx hj
      refine ⟨rv_grid R f x, ?_, hj⟩
      have := nn x hx
      have := zpow2_pos j
      rw [toInt_true]; push_cast; linarith
    constructor
    · intro H
      constructor
      · by_contra hc
        push Not at hc
        obtain ⟨⟨h1, h2⟩, h3⟩ := hc
        obtain ⟨x, hx, hn⟩ := lost h1 h2 (by omega) false (.inl ⟨rfl, by omega⟩)
        have ei : iret = i := by rw [hiret, if_neg (by omega)]; omega
        have := H x hx
        rw [ei, show f' = f0 by omega] at this
        exact hn this
      · rintro rfl hf
        by_contra hc
        push Not at hc
        have hx : IsKif false.toInt i0 f0 (p2 i0 - p2 (-f0)) := by
          refine ⟨?_, ?_, ?_⟩
          · obtain ⟨n, hn⟩ := grid_p2 (i := i0) (f := f0) (by omega)
            exact ⟨n - 1, by rw [hn]; push_cast; rw [sub_mul, one_mul]; rfl⟩
          · have := p2_le_p2 (a := -f0) (b := i0) (by omega)
            simp only [toInt_false, Int.cast_zero, zero_mul, neg_zero]; linarith
          · show _ < p2 i0
            linarith
        have hr : rv R f (p2 i0 - p2 (-f0)) = p2 i0 := by
          apply le_antisymm _ hc
          have := rv_mono R f (x := p2 i0 - p2 (-f0)) (y := p2 i0) (by linarith)
          rwa [rv_of_grid R f (grid_p2 (by omega))] at this
        have ei : iret = i0 + 1 := by rw [hiret, if_pos (by omega)]; omega
        have := H _ hx
        rw [show f' = f by omega, ei, gq_of_kif false (by rw [toInt_false]; omega) R .SAT (by decide) _ (by
          rw [hr]
          refine ⟨grid_p2 (by omega), ?_, ?_⟩
          · simp only [toInt_false, Int.cast_zero, zero_mul, neg_zero]; exact hpi.le
          · exact p2_lt_p2 (by omega)), hr] at this
        have h2 := (gq_kif true (i := i0) (f := f) (by rw [toInt_true]; omega) R .SAT (p2 i0 - p2 (-f0))).2.2
        change _ < p2 i0 at h2
        linarith
    · rintro ⟨hA, hB⟩ x hx
      rcases lt_trichotomy i0 i with h | rfl | h
      · rcases le_or_gt f0 f with hf | hf
        · have ei : iret = i0 := by rw [hiret, if_neg (by omega)]; omega
          have ef : f' = f0 := by omega
          rw [ei]
          refine hin false i0 x hx (by simp) ?_ ?_
          · rw [hex hf x hx, ef]; exact hx
          · rw [hex hf x hx]
            exact isKif_mono hx (by rw [toInt_false]) (by rw [toInt_false, toInt_true]; omega) h.le hf
        · have ei : iret = i0 + 1 := by rw [hiret, if_pos (by omega)]; omega
          have ef : f' = f := by omega
          have k := rv_range false (f := f) R hx (by simp)
          rw [ei]
          refine hin false (i0 + 1) x hx (by simp) (by rw [ef]; exact k) ?_
          exact isKif_mono k (by rw [toInt_false]) (by rw [toInt_false, toInt_true]; omega) (by omega) le_rfl
      · rcases le_or_gt f0 f with hf | hf
        · have ei : iret = i0 := by rw [hiret, if_neg (by omega)]; omega
          have ef : f' = f0 := by omega
          rw [ei]
          refine hin false i0 x hx (by simp) ?_ ?_
          · rw [hex hf x hx, ef]; exact hx
          · rw [hex hf x hx]
            exact isKif_mono hx (by rw [toInt_false]) (by rw [toInt_false, toInt_true]; omega) le_rfl hf
        · have ei : iret = i0 + 1 := by rw [hiret, if_pos (by omega)]; omega
          have ef : f' = f := by omega
          have k := rv_range false (f := f) R hx (by simp)
          rw [ei]
          refine hin false (i0 + 1) x hx (by simp) (by rw [ef]; exact k) ?_
          apply up x i0 hx
          exact lt_of_le_of_lt (rv_mono R f (kif_le_max (by omega) hx)) (hB rfl hf)
      · have ei : iret = i := by rw [hiret, if_neg (by omega)]; omega
        have h0 := nn x hx
        rw [ei, gq_sat true (by rw [toInt_true]; omega)]
        simp only [toInt_true, Int.cast_one, one_mul]
        rw [max_eq_left (by linarith)]
        rcases eq_or_ne (i + f) 0 with hz | hz
        · rw [gq_sat_false_nonpos (by omega), show -f = i by omega, sub_self, min_eq_right h0]
        · rw [show f' = f by omega, gq_sat false (by rw [toInt_false]; omega)]
          simp only [toInt_false, Int.cast_zero, zero_mul, neg_zero]
          rw [max_eq_left h0]
  · simp only [Bool.and_false, Bool.true_eq_false, if_false, Bool.false_eq_true]
    have est : storedI false false i iret = min i iret := by unfold storedI; rw [if_pos rfl]
    rw [est]
    rw [toInt_false] at hw
    rw [toInt_true] at hw0
    constructor
    · intro H
      by_contra hc
      push Not at hc
      obtain ⟨⟨h1, h2⟩, h3⟩ := hc
      obtain ⟨x, hx, hn⟩ := lost h1 h2 (by omega) false (.inl ⟨rfl, by omega⟩)
      have ei : min i iret = i := by rw [hiret, if_neg (by omega)]; omega
      have := H x hx
      rw [ei, show f' = f0 by omega] at this
      exact hn this
    · intro hA x hx
      rcases le_or_gt (rv R f x) 0 with h0 | h0
      · rw [hneg i f x h0, hneg _ f' x (by rw [hv x hx]; exact h0)]
      have hx0 : 0 < x := by
        by_contra hc
        push Not at hc
        have := rv_mono R f hc
        rw [rv_of_grid R f (x := 0) ⟨0, by simp⟩] at this
        linarith
      have hx' : IsKif false.toInt i0 f0 x := ⟨hx.1, by simpa using hx0.le, hx.2.2⟩
      rcases le_or_gt i0 i with hi | hi
      · rcases le_or_gt f0 f with hf | hf
        · have ei : min i iret = i0 := by rw [hiret, if_neg (by omega)]; omega
          rw [ei]
          refine hin false i0 x hx (by simp) ?_ ?_
          · rw [hex hf x hx, show f' = f0 by omega]; exact hx'
          · rw [hex hf x hx]
            exact isKif_mono hx' (by rw [toInt_false]) le_rfl hi hf
        · have ef : f' = f := by omega
          have ei : min i iret = min i (i0 + 1) := by rw [hiret, if_pos (by omega)]; omega
          rw [ei, ef]
          rcases hi.eq_or_lt with rfl | hlt
          · rw [min_eq_left (by omega)]
          · rw [min_eq_right (by omega)]
            have k := rv_range false (f := f) R hx' (by simp)
            have := hin false (i0 + 1) x hx (by simp) (by rw [ef]; exact k)
              (isKif_mono k (by rw [toInt_false]) le_rfl (by omega) le_rfl)
            rwa [ef] at this
      · have ei : min i iret = i := by rw [hiret, if_neg (by omega)]; omega
        rw [ei]
        rcases le_or_gt f f0 with hf | hf
        · rw [show f' = f by omega]
        · exfalso
          have hz : i0 + f0 = 0 := by
            rcases hA with h | h
            · exact absurd ⟨hf, hi⟩ h
            · exact h
          have := kif_le_max (by omega) hx
          rw [show -f0 = i0 by omega] at this
          linarith
  · simp only [Bool.and_self, if_true, true_implies]
    constructor
    · intro H
      rw [toInt_true] at hw hw0
      have hx0 : IsKif true.toInt i0 f0 0 := isKif_zero true i0 f0
      have hz : gq true i f R .SAT 0 = 0 := by
        have e : rv R f 0 = 0 := rv_of_grid R f ⟨0, by simp⟩
        rw [gq_of_kif true (by rw [toInt_true]; omega) R .SAT (by decide) 0 (by rw [e]; exact isKif_zero true i f), e]
      have hxm : IsKif true.toInt i0 f0 (-p2 i0) := by
        refine ⟨grid_neg (grid_p2 (by omega)), ?_, ?_⟩
        · simp only [toInt_true, Int.cast_one, one_mul]; exact le_rfl
        · show _ < p2 i0
          linarith
      constructor
      · rintro ⟨h1, h2⟩
        have est : storedI true true i iret = i := by
          unfold storedI; rw [if_pos rfl, hiret, if_neg (by omega)]; omega
        rw [est, show f' = f0 by omega] at H
        rcases lt_trichotomy (1 + i + f0) 0 with h | h | h
        · have := H 0 hx0
          rw [gq_sat_true_neg h, hz] at this
          linarith
        · have := H _ hxm
          have hl : p2 i < p2 i0 := p2_lt_p2 h2
          rw [gq_sat_true_zero h, gq_sat true (by rw [toInt_true]; omega),
            hex h1.le _ hxm] at this
          simp only [toInt_true, Int.cast_one, one_mul] at this
          rw [max_eq_right (by linarith), min_eq_left] at this
          · linarith
          · have := p2_le_p2 (a := -f) (b := i) (by omega)
            linarith
        · obtain ⟨x, hx, hn⟩ := lost h1 h2 (by omega) true (.inr (by rw [toInt_true]; omega))
          exact hn (H x hx)
      · intro h1
        rcases le_or_gt 0 (i0 + 1 + f) with h2 | h2
        · exact ⟨by omega, .inl h2⟩
        have est : storedI true true i iret = i0 + 1 := by
          unfold storedI; rw [if_pos rfl, hiret, if_pos (by omega)]; omega
        rw [est, show f' = f by omega] at H
        have h3 : 0 ≤ i0 + 2 + f := by
          by_contra h3
          have := H 0 hx0
          rw [gq_sat_true_neg (by omega), hz] at this
          have := p2_pos (i0 + 1)
          linarith
        refine ⟨h3, .inr ?_⟩
        by_contra hc
        have hr := (rv_neg_small R (i0 := i0) (f := f) (by omega)).resolve_left hc
        have := H _ hxm
        rw [gq_sat_true_zero (by omega), gq_of_kif true (by rw [toInt_true]; omega) R .SAT (by decide) _ (by
          rw [hr]
          refine ⟨⟨-1, by push_cast; rw [neg_one_mul]; rfl⟩, ?_, ?_⟩
          · have := p2_le_p2 (a := -f) (b := i) (by omega)
            simp only [toInt_true, Int.cast_one, one_mul]
            show -p2 i ≤ _
            linarith
          · show _ < p2 i
            linarith), hr] at this
        linarith
    · intro h
      exact same rfl ⟨h.1, fun _ => h.2⟩

end HGQ
