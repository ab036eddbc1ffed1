import Verif.Lemmas.NarrowSat

/-!
C35 for wrapping and saturating quantizers, exactly: which upstream types leave every output of the quantizer as it was
when its produced type is queried. All rounding modes.
-/

namespace Spec

/-- When querying the produced type of a wrapping quantizer with sign bit `s`, `i` integer and `f` fractional bits keeps
every output on the values of an upstream type with sign bit `s0`, `i0` integer and `f0` fractional bits. `round` is the
rounding to integers of the quantizer's mode. -/
def WrapKeeps (round : ℚ → ℚ) (s0 i0 f0 s i f : ℤ) : Prop :=
  -- both unsigned: always
  (s0 = 0 ∧ s = 0) ∨
  -- both signed: unless negative values of less than half a step are rounded away from zero
  (s0 = 1 ∧ s = 1 ∧ ¬(f < f0 ∧ i0 + 1 + f < 0 ∧ round (-(2 : ℚ) ^ (i0 + f)) ≠ 0)) ∨
  -- unsigned into signed: the input fits without its sign bit, and rounding does not carry it to `2 ^ i`;
  -- or every overflowing value is a multiple of the period
  (s0 = 0 ∧ s = 1 ∧ (i0 < i ∨ (i0 = i ∧ (f0 ≤ f ∨ round ((2 : ℚ) ^ (i + f) - (2 : ℚ) ^ (f - f0)) < (2 : ℚ) ^ (i + f))) ∨
    (i < i0 ∧ f0 + i < 0))) ∨
  -- signed into unsigned: negative values wrap at the same place, or there are none after rounding
  (s0 = 1 ∧ s = 0 ∧ (i ≤ i0 ∨ (i0 + 1 = i ∧ f < f0) ∨ (f < f0 ∧ round (-(2 : ℚ) ^ (i0 + f)) = 0)))

/-- The same for a saturating quantizer. -/
def SatKeeps (round : ℚ → ℚ) (s0 i0 f0 s i f : ℤ) : Prop :=
  -- both unsigned: unless the largest output loses fractional bits
  (s0 = 0 ∧ s = 0 ∧ ¬(f0 < f ∧ i < i0)) ∨
  -- both signed: also the shrunk width must not be negative, and at width zero every value must round to zero
  (s0 = 1 ∧ s = 1 ∧ ¬(f0 < f ∧ i < i0) ∧
    (f < f0 → 0 ≤ i0 + 2 + f ∧ (0 ≤ i0 + 1 + f ∨ round (-(2 : ℚ) ^ (i0 + f)) = 0))) ∨
  -- unsigned into signed: a quantizer without positive outputs may lose fractional bits; no value may be carried to `2 ^ i`
  -- by the rounding when the input just fits
  (s0 = 0 ∧ s = 1 ∧ (¬(f0 < f ∧ i < i0) ∨ i + f = 0) ∧
    (i0 = i → f < f0 → round ((2 : ℚ) ^ (i + f) - (2 : ℚ) ^ (f - f0)) < (2 : ℚ) ^ (i + f))) ∨
  -- signed into unsigned: an input without positive values may lose fractional bits
  (s0 = 1 ∧ s = 0 ∧ (¬(f0 < f ∧ i < i0) ∨ i0 + f0 = 0))

end Spec

namespace HGQ

open Spec

theorem rv_neg_iff (R : Rnd) (i0 f : ℤ) : rv R f (-p2 i0) = 0 ↔ rndMap R (-(2 : ℚ) ^ (i0 + f)) = 0 := by
  have : -p2 i0 * p2 f = -(2 : ℚ) ^ (i0 + f) := by rw [neg_mul, ← p2_add]; rfl
  unfold rv
  rw [this]
  constructor
  · intro h
    rcases mul_eq_zero.mp h with h | h
    · exact h
    · exact absurd h (p2_ne _)
  · intro h; rw [h, zero_mul]

theorem rv_max_iff (R : Rnd) (i f f0 : ℤ) : rv R f (p2 i - p2 (-f0)) < p2 i ↔
    rndMap R ((2 : ℚ) ^ (i + f) - (2 : ℚ) ^ (f - f0)) < (2 : ℚ) ^ (i + f) := by
  have e : (p2 i - p2 (-f0)) * p2 f = (2 : ℚ) ^ (i + f) - (2 : ℚ) ^ (f - f0) := by
    rw [sub_mul, ← p2_add, ← p2_add, show -f0 + f = f - f0 by ring]; rfl
  have e2 : p2 i = p2 (i + f) * p2 (-f) := by rw [← p2_add]; congr 1; ring
  unfold rv
  rw [e, e2]
  exact mul_lt_mul_iff_left₀ (p2_pos _)

theorem wrapCond_iff (s0 s : Bool) (i0 f0 i f : ℤ) (R : Rnd) :
    WrapCond s0 s i0 f0 i f R ↔ WrapKeeps (rndMap R) s0.toInt i0 f0 s.toInt i f := by
  unfold WrapCond WrapKeeps
  cases s0 <;> cases s <;> simp [rv_neg_iff, rv_max_iff]

/-- the outputs of a homogeneous quantizer before and after the query -/
theorem FPQ.call_produced (q : FPQ) (hh : heterogeneous q.elems = false) (inp : KIF) (s0 s : Bool)
    (hs0 : inp.k = s0.toInt) (hs : q.kif.k = s.toInt) (x : ℚ) (e : ℕ) (he : e < q.elems.length) :
    q.call e x = gq s q.kif.i q.kif.f q.rnd q.sat x ∧ (q.produced inp).2.call e x =
      gq (s0 && s) (storedI s (s0 && s) q.kif.i (retI inp q.kif)) (min inp.f q.kif.f) q.rnd q.sat x := by
  have hmin : min inp.k q.kif.k = (s0 && s).toInt := by
    rw [hs0, hs]; cases s0 <;> cases s <;> rfl
  have hel := q.elem_of_kif hh
  have hget : q.elems.getD e ⟨0, 0, 0⟩ = ⟨q.kif.k, q.kif.k + q.kif.i + q.kif.f, q.kif.k + q.kif.i⟩ := by
    rw [getD_lt _ _ he]; exact hel _ (List.getElem_mem he)
  have hcall : q.call e x = gq s q.kif.i q.kif.f q.rnd q.sat x := by
    unfold FPQ.call; rw [hget, hs]; rfl
  refine ⟨hcall, ?_⟩
  rw [q.produced_snd]
  split_ifs with hc
  · obtain ⟨e1, e2, e3⟩ := shrink_int s0 s inp q.kif hs0 hs
    have hlen : e < (q.elems.map fun e =>
        ({ keepNegative := min e.keepNegative (min inp.k q.kif.k),
           bits := min e.bits (min inp.k q.kif.k + retI inp q.kif + min inp.f q.kif.f),
           integers := min e.integers (min inp.k q.kif.k + retI inp q.kif) } : KBI)).length := by simpa using he
    unfold FPQ.call
    simp only
    rw [getD_lt _ _ hlen, List.getElem_map, hel _ (List.getElem_mem he)]
    simp only
    unfold gq KBI.apply
    rw [e1, e2, e3]
  · push Not at hc
    obtain ⟨c1, c2, c3⟩ := hc
    rw [hcall]
    have h5 : (s0 && s) = s := by
      rw [hmin, hs] at c1
      cases s0 <;> cases s <;> simp_all
    rw [c3, h5, c2]
    unfold storedI
    rw [if_pos rfl, min_self]

/-- **C35**, wrapping quantizers in every rounding mode: querying the produced type of a homogeneous wrapping quantizer
keeps its outputs on all values of the upstream type exactly when `WrapKeeps`. -/
theorem C35_wrap_iff (q : FPQ) (hh : heterogeneous q.elems = false) (hne : q.elems ≠ []) (inp : KIF)
    (hik : inp.k = 0 ∨ inp.k = 1) (hok : q.kif.k = 0 ∨ q.kif.k = 1) (hS : q.sat = .WRAP)
    (hw : 1 ≤ q.kif.k + q.kif.i + q.kif.f) (hwi : 1 ≤ inp.k + inp.i + inp.f) :
    (∀ x, inp.Holds x → ∀ e < q.elems.length, (q.produced inp).2.call e x = q.call e x) ↔
      WrapKeeps (rndMap q.rnd) inp.k inp.i inp.f q.kif.k q.kif.i q.kif.f := by
  obtain ⟨s0, hs0⟩ : ∃ s0 : Bool, inp.k = s0.toInt := by
    rcases hik with h | h
    · exact ⟨false, h⟩
    · exact ⟨true, h⟩
  obtain ⟨s, hs⟩ : ∃ s : Bool, q.kif.k = s.toInt := by
    rcases hok with h | h
    · exact ⟨false, h⟩
    · exact ⟨true, h⟩
  have core := wrap_iff s0 s inp.i inp.f q.kif.i q.kif.f q.rnd (by omega) (by omega) _ _ rfl
    (rfl : retI inp q.kif = _)
  rw [wrapCond_iff, ← hs0, ← hs] at core
  rw [← core]
  have hpos : 0 < q.elems.length := List.length_pos_of_ne_nil hne
  constructor
  · intro H x hx
    have := H x hx 0 hpos
    obtain ⟨a, b⟩ := q.call_produced hh inp s0 s hs0 hs x 0 hpos
    rw [a, b, hS] at this
    exact this
  · intro H x hx e he
    obtain ⟨a, b⟩ := q.call_produced hh inp s0 s hs0 hs x e he
    rw [a, b, hS]
    exact H x hx

theorem satCond_iff (s0 s : Bool) (i0 f0 i f : ℤ) (R : Rnd) :
    SatCond s0 s i0 f0 i f R ↔ SatKeeps (rndMap R) s0.toInt i0 f0 s.toInt i f := by
  unfold SatCond SatKeeps
  cases s0 <;> cases s <;> simp [rv_neg_iff, rv_max_iff]

/-- **C35**, saturating quantizers in every rounding mode: querying the produced type of a homogeneous saturating quantizer
keeps its outputs on all values of the upstream type exactly when `SatKeeps`. -/
theorem C35_sat_iff (q : FPQ) (hh : heterogeneous q.elems = false) (hne : q.elems ≠ []) (inp : KIF)
    (hik : inp.k = 0 ∨ inp.k = 1) (hok : q.kif.k = 0 ∨ q.kif.k = 1) (hS : q.sat = .SAT)
    (hw : 1 ≤ q.kif.k + q.kif.i + q.kif.f) (hwi : 1 ≤ inp.k + inp.i + inp.f) :
    (∀ x, inp.Holds x → ∀ e < q.elems.length, (q.produced inp).2.call e x = q.call e x) ↔
      SatKeeps (rndMap q.rnd) inp.k inp.i inp.f q.kif.k q.kif.i q.kif.f := by
  obtain ⟨s0, hs0⟩ : ∃ s0 : Bool, inp.k = s0.toInt := by
    rcases hik with h | h
    · exact ⟨false, h⟩
    · exact ⟨true, h⟩
  obtain ⟨s, hs⟩ : ∃ s : Bool, q.kif.k = s.toInt := by
    rcases hok with h | h
    · exact ⟨false, h⟩
    · exact ⟨true, h⟩
  have core := sat_iff s0 s inp.i inp.f q.kif.i q.kif.f q.rnd (by omega) (by omega) _ _ rfl
    (rfl : retI inp q.kif = _)
  rw [satCond_iff, ← hs0, ← hs] at core
  rw [← core]
  have hpos : 0 < q.elems.length := List.length_pos_of_ne_nil hne
  constructor
  · intro H x hx
    have := H x hx 0 hpos
    obtain ⟨a, b⟩ := q.call_produced hh inp s0 s hs0 hs x 0 hpos
    rw [a, b, hS] at this
    exact this
  · intro H x hx e he
    obtain ⟨a, b⟩ := q.call_produced hh inp s0 s hs0 hs x e he
    rw [a, b, hS]
    exact H x hx

/-- **C35**, wrapping quantizers: whenever the outputs are kept they lie in the returned type. -/
theorem C35_wrap_in_type (q : FPQ) (hh : heterogeneous q.elems = false) (hne : q.elems ≠ []) (inp : KIF)
    (hik : inp.k = 0 ∨ inp.k = 1) (hok : q.kif.k = 0 ∨ q.kif.k = 1) (hS : q.sat = .WRAP)
    (hw : 1 ≤ q.kif.k + q.kif.i + q.kif.f) (hwi : 1 ≤ inp.k + inp.i + inp.f)
    (h : WrapKeeps (rndMap q.rnd) inp.k inp.i inp.f q.kif.k q.kif.i q.kif.f)
    (x : ℚ) (hx : inp.Holds x) (e : ℕ) (he : e < q.elems.length) :
    (q.produced inp).2.call e x = q.call e x ∧ (q.produced inp).1.Holds (q.call e x) := by
  have heq := (C35_wrap_iff q hh hne inp hik hok hS hw hwi).mpr h x hx e he
  refine ⟨heq, ?_⟩
  obtain ⟨s0, hs0⟩ : ∃ s0 : Bool, inp.k = s0.toInt := by
    rcases hik with h | h
    · exact ⟨false, h⟩
    · exact ⟨true, h⟩
  obtain ⟨s, hs⟩ : ∃ s : Bool, q.kif.k = s.toInt := by
    rcases hok with h | h
    · exact ⟨false, h⟩
    · exact ⟨true, h⟩
  have hmin : min inp.k q.kif.k = (s0 && s).toInt := by
    rw [hs0, hs]; cases s0 <;> cases s <;> rfl
  rw [← heq, (q.call_produced hh inp s0 s hs0 hs x e he).2, hS, q.produced_fst, hmin]
  set j := storedI s (s0 && s) q.kif.i (retI inp q.kif) with hj
  rcases le_or_gt ((s0 && s).toInt + j + min inp.f q.kif.f) 0 with h0 | h0
  · rw [gq_wrap_nonpos _ h0]
    exact isKif_zero _ _ _
  · refine isKif_mono (gq_kif _ h0.le _ _ x) ?_ le_rfl ?_ le_rfl
    · rcases toInt_cases (s0 && s) with h | h <;> omega
    · rw [hj]; unfold storedI; split_ifs
      · exact min_le_right _ _
      · exact le_rfl

/-- **C35**, saturating quantizers: whenever the outputs are kept they lie in the returned type. -/
theorem C35_sat_in_type (q : FPQ) (hh : heterogeneous q.elems = false) (hne : q.elems ≠ []) (inp : KIF)
    (hik : inp.k = 0 ∨ inp.k = 1) (hok : q.kif.k = 0 ∨ q.kif.k = 1) (hS : q.sat = .SAT)
    (hw : 1 ≤ q.kif.k + q.kif.i + q.kif.f) (hwi : 1 ≤ inp.k + inp.i + inp.f)
    (h : SatKeeps (rndMap q.rnd) inp.k inp.i inp.f q.kif.k q.kif.i q.kif.f)
    (x : ℚ) (hx : inp.Holds x) (e : ℕ) (he : e < q.elems.length) :
    (q.produced inp).2.call e x = q.call e x ∧ (q.produced inp).1.Holds (q.call e x) := by
  have heq := (C35_sat_iff q hh hne inp hik hok hS hw hwi).mpr h x hx e he
  refine ⟨heq, ?_⟩
  obtain ⟨s0, hs0⟩ : ∃ s0 : Bool, inp.k = s0.toInt := by
    rcases hik with h | h
    · exact ⟨false, h⟩
    · exact ⟨true, h⟩
  obtain ⟨s, hs⟩ : ∃ s : Bool, q.kif.k = s.toInt := by
    rcases hok with h | h
    · exact ⟨false, h⟩
    · exact ⟨true, h⟩
  have hmin : min inp.k q.kif.k = (s0 && s).toInt := by
    rw [hs0, hs]; cases s0 <;> cases s <;> rfl
  have hneg : (s0 && s) = true → 0 ≤ 1 + storedI s (s0 && s) q.kif.i (retI inp q.kif) + min inp.f q.kif.f := by
    intro hb
    obtain ⟨rfl, rfl⟩ : s0 = true ∧ s = true := by simpa using hb
    rw [toInt_true] at hs0 hs
    unfold SatKeeps at h
    rw [hs0, hs] at h
    obtain ⟨h1, h2⟩ : ¬(inp.f < q.kif.f ∧ q.kif.i < inp.i) ∧ (q.kif.f < inp.f → 0 ≤ inp.i + 2 + q.kif.f) := by
      rcases h with h | h | h | h
      · omega
      · exact ⟨h.2.2.1, fun a => (h.2.2.2 a).1⟩
      · omega
      · omega
    unfold storedI retI
    simp only [Bool.and_self, if_true]
    split_ifs <;> omega
  rw [← heq, (q.call_produced hh inp s0 s hs0 hs x e he).2, hS, q.produced_fst, hmin]
  set j := storedI s (s0 && s) q.kif.i (retI inp q.kif) with hj
  rcases lt_or_ge ((s0 && s).toInt + j + min inp.f q.kif.f) 0 with h0 | h0
  · rcases hb : (s0 && s) with _ | _
    · rw [hb, toInt_false] at h0
      rw [gq_sat_false_nonpos (by omega)]
      exact isKif_zero false _ _
    · rw [hb, toInt_true] at h0
      have := hneg hb
      omega
  · refine isKif_mono (gq_kif _ h0 _ _ x) ?_ le_rfl ?_ le_rfl
    · rcases toInt_cases (s0 && s) with h | h <;> omega
    · rw [hj]; unfold storedI; split_ifs
      · exact min_le_right _ _
      · exact le_rfl

/-- **C35**, truncation: the condition in numbers. -/
theorem C35_wrap_trn (q : FPQ) (hh : heterogeneous q.elems = false) (hne : q.elems ≠ []) (inp : KIF)
    (hik : inp.k = 0 ∨ inp.k = 1) (hok : q.kif.k = 0 ∨ q.kif.k = 1) (hS : q.sat = .WRAP) (hR : q.rnd = .TRN)
    (hw : 1 ≤ q.kif.k + q.kif.i + q.kif.f) (hwi : 1 ≤ inp.k + inp.i + inp.f) :
    (∀ x, inp.Holds x → ∀ e < q.elems.length, (q.produced inp).2.call e x = q.call e x) ↔
      (inp.k = 0 ∧ q.kif.k = 0) ∨
      (inp.k = 1 ∧ q.kif.k = 1 ∧ (inp.f ≤ q.kif.f ∨ 0 ≤ inp.i + 1 + q.kif.f)) ∨
      (inp.k = 0 ∧ q.kif.k = 1 ∧ (inp.i ≤ q.kif.i ∨ inp.f + q.kif.i < 0)) ∨
      (inp.k = 1 ∧ q.kif.k = 0 ∧ (q.kif.i ≤ inp.i ∨ inp.i + 1 = q.kif.i ∧ q.kif.f < inp.f)) := by
  rw [C35_wrap_iff q hh hne inp hik hok hS hw hwi, hR]
  have a : ∀ z : ℤ, rndMap .TRN (-(2 : ℚ) ^ z) ≠ 0 := by
    intro z h
    have h2 : ((⌊-(2 : ℚ) ^ z⌋ : ℤ) : ℚ) = 0 := h
    have h3 := Int.floor_le (-(2 : ℚ) ^ z)
    have := Int.lt_floor_add_one (-(2 : ℚ) ^ z)
    rw [h2] at h3
    have := zpow2_pos z
    linarith
  have b : ∀ u v : ℤ, rndMap .TRN ((2 : ℚ) ^ u - (2 : ℚ) ^ v) < (2 : ℚ) ^ u := by
    intro u v
    have h3 : rndMap .TRN ((2 : ℚ) ^ u - (2 : ℚ) ^ v) ≤ (2 : ℚ) ^ u - (2 : ℚ) ^ v := Int.floor_le _
    have := zpow2_pos v
    linarith
  unfold WrapKeeps
  simp only [ne_eq, a, not_false_eq_true, and_true, b, or_true, and_false, or_false]
  omega

/-- **C35**, round half up: the condition in numbers. -/
theorem C35_wrap_rnd (q : FPQ) (hh : heterogeneous q.elems = false) (hne : q.elems ≠ []) (inp : KIF)
    (hik : inp.k = 0 ∨ inp.k = 1) (hok : q.kif.k = 0 ∨ q.kif.k = 1) (hS : q.sat = .WRAP) (hR : q.rnd = .RND)
    (hw : 1 ≤ q.kif.k + q.kif.i + q.kif.f) (hwi : 1 ≤ inp.k + inp.i + inp.f) :
    (∀ x, inp.Holds x → ∀ e < q.elems.length, (q.produced inp).2.call e x = q.call e x) ↔
      (inp.k = q.kif.k) ∨
      (inp.k = 0 ∧ q.kif.k = 1 ∧ (inp.i < q.kif.i ∨ inp.i = q.kif.i ∧ inp.f ≤ q.kif.f ∨ q.kif.i < inp.i ∧ inp.f + q.kif.i < 0)) ∨
      (inp.k = 1 ∧ q.kif.k = 0 ∧ (q.kif.i ≤ inp.i ∨
        q.kif.f < inp.f ∧ (inp.i + 1 = q.kif.i ∨ inp.i + q.kif.f < 0))) := by
  rw [C35_wrap_iff q hh hne inp hik hok hS hw hwi, hR]
  have a : ∀ z : ℤ, rndMap .RND (-(2 : ℚ) ^ z) = 0 ↔ z < 0 := by
    intro z
    have e : rndMap .RND (-(2 : ℚ) ^ z) = ((⌊-(2 : ℚ) ^ z + 1 / 2⌋ : ℤ) : ℚ) := rfl
    rw [e]
    have hz := zpow2_pos z
    constructor
    · intro h
      by_contra hc
      have h1 : p2 0 ≤ p2 z := p2_le_p2 (by omega)
      rw [p2_zero] at h1
      change 1 ≤ (2 : ℚ) ^ z at h1
      have h3 := Int.floor_le (-(2 : ℚ) ^ z + 1 / 2)
      rw [h] at h3
      linarith
    · intro h
      have h1 := p2_half h
      rw [p2_zero] at h1
      change 2 * (2 : ℚ) ^ z ≤ 1 at h1
      have : ⌊-(2 : ℚ) ^ z + 1 / 2⌋ = 0 := by
        rw [Int.floor_eq_iff]; push_cast; constructor <;> linarith
      rw [this]; rfl
  have b : q.kif.f < inp.f → 0 ≤ q.kif.i + q.kif.f →
      ¬ rndMap .RND ((2 : ℚ) ^ (q.kif.i + q.kif.f) - (2 : ℚ) ^ (q.kif.f - inp.f)) < (2 : ℚ) ^ (q.kif.i + q.kif.f) := by
    intro h1 h2
    obtain ⟨m, hm, -⟩ := p2_int_of_nonneg h2
    change (2 : ℚ) ^ (q.kif.i + q.kif.f) = m at hm
    have h3 : 2 * p2 (q.kif.f - inp.f) ≤ p2 0 := p2_half (by omega)
    rw [p2_zero] at h3
    change 2 * (2 : ℚ) ^ (q.kif.f - inp.f) ≤ 1 at h3
    have e : rndMap .RND ((2 : ℚ) ^ (q.kif.i + q.kif.f) - (2 : ℚ) ^ (q.kif.f - inp.f)) =
      ((⌊(2 : ℚ) ^ (q.kif.i + q.kif.f) - (2 : ℚ) ^ (q.kif.f - inp.f) + 1 / 2⌋ : ℤ) : ℚ) := rfl
    rw [e, hm, not_lt]
    have : m ≤ ⌊(m : ℚ) - (2 : ℚ) ^ (q.kif.f - inp.f) + 1 / 2⌋ := by
      rw [Int.le_floor]; linarith
    exact_mod_cast this
  unfold WrapKeeps
  simp only [ne_eq, a]
  constructor
  · rintro (h | h | ⟨h1, h2, h | ⟨h3, h | h⟩ | h⟩ | h)
    · omega
    · omega
    · omega
    · omega
    · by_cases hf : q.kif.f < inp.f
      · exact absurd h (b hf (by omega))
      · omega
    · omega
    · omega
  · intro h
    by_cases hc : inp.k = 0 ∧ q.kif.k = 1
    · refine .inr (.inr (.inl ⟨hc.1, hc.2, ?_⟩))
      have : inp.i < q.kif.i ∨ inp.i = q.kif.i ∧ inp.f ≤ q.kif.f ∨ q.kif.i < inp.i ∧ inp.f + q.kif.i < 0 := by omega
      rcases this with h | h | h
      · exact .inl h
      · exact .inr (.inl ⟨h.1, .inl h.2⟩)
      · exact .inr (.inr h)
    · omega

/-! Non-vacuity: the three theorems on concrete quantizers, on both sides of the equivalences. -/

-- unsigned (0,3,4) into a signed quantizer with 3 integer bits, truncating: kept; rounding: not kept
example : ∀ x, (⟨0, 3, 4⟩ : KIF).Holds x → ∀ e < 2,
    ((FPQ.const 2 1 3 1 .TRN .WRAP).produced ⟨0, 3, 4⟩).2.call e x = (FPQ.const 2 1 3 1 .TRN .WRAP).call e x :=
  (C35_wrap_trn (FPQ.const 2 1 3 1 .TRN .WRAP) (by decide +kernel) (by decide +kernel) ⟨0, 3, 4⟩ (.inl rfl)
    (by decide +kernel) rfl rfl (by decide +kernel) (by decide +kernel)).mpr (by decide +kernel)

example : ¬ ∀ x, (⟨0, 3, 4⟩ : KIF).Holds x → ∀ e < 2,
    ((FPQ.const 2 1 3 1 .RND .WRAP).produced ⟨0, 3, 4⟩).2.call e x = (FPQ.const 2 1 3 1 .RND .WRAP).call e x := fun h =>
  absurd ((C35_wrap_rnd (FPQ.const 2 1 3 1 .RND .WRAP) (by decide +kernel) (by decide +kernel) ⟨0, 3, 4⟩ (.inl rfl)
    (by decide +kernel) rfl rfl (by decide +kernel) (by decide +kernel)).mp h) (by decide +kernel)

-- the value that tells: 8 - 1/16 rounds to 8, which the signed quantizer wraps and the shrunk one does not
example : (FPQ.const 2 1 3 1 .RND .WRAP).call 0 (127/16) = -8 ∧
    ((FPQ.const 2 1 3 1 .RND .WRAP).produced ⟨0, 3, 4⟩).2.call 0 (127/16) = 8 := by decide +kernel

-- other modes: round half to even keeps the outputs of a one-bit case that round half up changes
example : WrapKeeps (rndMap .RND_CONV) 0 0 1 1 0 0 ∧ ¬ WrapKeeps (rndMap .RND) 0 0 1 1 0 0 := by
  unfold WrapKeeps
  decide +kernel

example (x : ℚ) (hx : (⟨1, 2, 5⟩ : KIF).Holds x) :
    ((FPQ.const 1 1 4 2 .RND_CONV .WRAP).produced ⟨1, 2, 5⟩).1.Holds ((FPQ.const 1 1 4 2 .RND_CONV .WRAP).call 0 x) :=
  (C35_wrap_in_type (FPQ.const 1 1 4 2 .RND_CONV .WRAP) (by decide +kernel) (by decide +kernel) ⟨1, 2, 5⟩ (.inr rfl)
    (by decide +kernel) rfl (by decide +kernel) (by decide +kernel) (by unfold WrapKeeps; decide +kernel) x hx 0
    (by decide +kernel)).2

-- saturation: the same widths keep or lose outputs depending on the fractional bits of the input
example : ∀ x, (⟨1, 5, 2⟩ : KIF).Holds x → ∀ e < 3,
    ((FPQ.const 3 1 3 2 .RND .SAT).produced ⟨1, 5, 2⟩).2.call e x = (FPQ.const 3 1 3 2 .RND .SAT).call e x :=
  (C35_sat_iff (FPQ.const 3 1 3 2 .RND .SAT) (by decide +kernel) (by decide +kernel) ⟨1, 5, 2⟩ (.inr rfl)
    (by decide +kernel) rfl (by decide +kernel) (by decide +kernel)).mpr (by unfold SatKeeps; decide +kernel)

example : ¬ ∀ x, (⟨1, 5, 1⟩ : KIF).Holds x → ∀ e < 3,
    ((FPQ.const 3 1 3 2 .RND .SAT).produced ⟨1, 5, 1⟩).2.call e x = (FPQ.const 3 1 3 2 .RND .SAT).call e x := fun h =>
  absurd ((C35_sat_iff (FPQ.const 3 1 3 2 .RND .SAT) (by decide +kernel) (by decide +kernel) ⟨1, 5, 1⟩ (.inr rfl)
    (by decide +kernel) rfl (by decide +kernel) (by decide +kernel)).mp h) (by unfold SatKeeps; decide +kernel)

/-- **C35** fails for `SAT` when the upstream type is far below the resolution: the stored width becomes negative, and the
quantizer returns `-1/4` for every input, also for zero. -/
theorem C35_sat_negative_width : ∃ (q : FPQ) (inp : KIF), heterogeneous q.elems = false ∧ q.rnd = .RND ∧ q.sat = .SAT ∧
    q.kif = ⟨1, 4, 0⟩ ∧ inp = ⟨1, -3, 5⟩ ∧ (q.produced inp).2.elems = [⟨1, -1, -1⟩] ∧ inp.Holds 0 ∧ q.call 0 0 = 0 ∧
    (q.produced inp).2.call 0 0 = -1/4 :=
  ⟨.const 1 1 4 0 .RND .SAT, ⟨1, -3, 5⟩, by decide +kernel, rfl, rfl, by decide +kernel, rfl, by decide +kernel,
    KIF.holds_of_holdsB (by decide +kernel), by decide +kernel, by decide +kernel⟩

end HGQ
