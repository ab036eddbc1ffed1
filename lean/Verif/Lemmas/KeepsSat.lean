import Verif.Lemmas.FitsRange

/-!
Saturating quantizers made from recorded ranges: on inputs whose outputs are in the recorded ranges, deriving the type loses nothing.
-/

namespace HGQ

open Spec

/-- a saturating quantizer, on an input on a grid that is no finer than its own, outputs the input or one end of its range -/
theorem gq_sat_cases (s : Bool) {i f g : ℤ} (hw : 1 ≤ s.toInt + i + f) (hf : g ≤ f) (R : Rnd) {x : ℚ} (hx : ∃ n : ℤ, x = n * p2 (-g)) :
    gq s i f R .SAT x = min (max x (-(s.toInt * p2 i))) (p2 i - p2 (-f)) := by
  rw [gq_sat s hw, rv_of_grid R f (grid_mono hf hx)]

/-- a value on the grid below a power of two is at least one step below -/
theorem grid_le_top {i f : ℤ} (hw : 0 ≤ i + f) {v : ℚ} (hg : ∃ n : ℤ, v = n * p2 (-f)) (h : v < p2 i) : v ≤ p2 i - p2 (-f) := by
  obtain ⟨n, rfl⟩ := hg
  obtain ⟨m, hm⟩ := grid_p2 hw
  have hp := p2_pos (-f)
  rw [hm] at h ⊢
  have : (n : ℚ) < m := lt_of_mul_lt_mul_right h hp.le
  have : n + 1 ≤ m := by exact_mod_cast this
  have : (n : ℚ) + 1 ≤ m := by exact_mod_cast this
  have := mul_le_mul_of_nonneg_right this hp.le
  linarith

/-- the range recorded for an element: on the grid of the upstream type, within the element's type, and around the output `v` -/
def KBI.Around (E : KBI) (T : KIF) (v : ℚ) : Prop :=
  ∃ lo hi, (∃ n : ℤ, lo = n * (2 : ℚ) ^ (-T.f)) ∧ (∃ n : ℤ, hi = n * (2 : ℚ) ^ (-T.f)) ∧
    IsKif E.keepNegative (E.integers - E.keepNegative) (E.bits - E.integers) lo ∧
    IsKif E.keepNegative (E.integers - E.keepNegative) (E.bits - E.integers) hi ∧ lo ≤ v ∧ v ≤ hi

/-- A saturating quantizer whose elements have their sign and integer bits in the produced type: on an input of the upstream type whose
output is in the range recorded for its element, the query changes nothing, and the output is a value of the returned type. -/
theorem FPQ.keeps_sat (q : FPQ) (inp : KIF) (hel : ∀ e ∈ q.elems, (e.keepNegative = 0 ∨ e.keepNegative = 1) ∧ 0 ≤ e.bits)
    (hik : inp.k = 0 ∨ inp.k = 1) (hS : q.sat = .SAT)
    (hw : 1 ≤ (q.produced inp).1.k + (q.produced inp).1.i + (q.produced inp).1.f)
    (hall : ∀ e ∈ q.elems, e = KBI.pruned ∨
      e.keepNegative ≤ (q.produced inp).1.k ∧ e.integers - e.keepNegative ≤ (q.produced inp).1.i)
    (x : ℚ) (hx : inp.Holds x) (e : ℕ) (he : e < q.elems.length)
    (hr : q.elems[e] ≠ KBI.pruned → q.elems[e].Around inp (q.call e x)) :
    (q.produced inp).2.call e x = q.call e x ∧ (q.produced inp).1.Holds (q.call e x) := by
  have hm : q.elems[e] ∈ q.elems := List.getElem_mem he
  have hE := hall _ hm
  obtain ⟨hek, heb⟩ := hel _ hm
  obtain ⟨l1, l2, l3⟩ := q.elem_le hm
  have hkq : 0 ≤ q.kif.k := by omega
  rw [q.produced_fst] at hw hE ⊢
  simp only at hw hE
  have hcall : (q.produced inp).2.call e x = KBI.apply
      { keepNegative := min q.elems[e].keepNegative (min inp.k q.kif.k),
        bits := min q.elems[e].bits (min inp.k q.kif.k + retI inp q.kif + min inp.f q.kif.f),
        integers := min q.elems[e].integers (min inp.k q.kif.k + retI inp q.kif) } q.rnd q.sat x := by
    rw [q.produced_snd]
    split_ifs with hc
    · unfold FPQ.call
      rw [getD_lt _ _ (by simpa using he)]
      simp only [List.getElem_map]
    · push Not at hc
      rw [hc.1, hc.2.1, hc.2.2, min_eq_left l1, min_eq_left (by omega), min_eq_left (by omega)]
      unfold FPQ.call
      rw [getD_lt _ _ he]
  rw [hcall]
  unfold FPQ.call at hr ⊢
  rw [getD_lt _ _ he] at hr ⊢
  generalize q.elems[e] = E at *
  generalize hPk : min inp.k q.kif.k = Pk at *
  generalize hPi : retI inp q.kif = Pi at *
  generalize hPf : min inp.f q.kif.f = Pf at *
  have hg : ∃ n : ℤ, x = n * p2 (-inp.f) := hx.1
  have hzero : (⟨Pk, Pi, Pf⟩ : KIF).Holds 0 := KIF.holds_zero (by simp only; omega)
  by_cases hp : E = KBI.pruned
  · subst hp
    rw [KBI.apply_zero_bits (E := KBI.pruned) (.inl rfl) rfl, KBI.apply_zero_bits]
    · exact ⟨rfl, hzero⟩
    · left; show min 0 Pk = 0; omega
    · show min 0 _ = 0; omega
  · obtain ⟨lo, hi, glo, ghi, klo, khi, v1, v2⟩ := hr hp
    obtain ⟨h1, h2⟩ := hE.resolve_left hp
    obtain ⟨s, hs⟩ := bool_of_k hek
    rw [min_eq_left h1, min_eq_left (by omega : E.integers ≤ Pk + Pi)]
    rw [KBI.apply_eq_gq E s hs, KBI.apply_eq_gq _ s (by exact hs)]
    rw [KBI.apply_eq_gq E s hs] at v1 v2
    simp only
    rw [hS] at v1 v2 ⊢
    have hsc := toInt_cases s
    rw [hs] at klo khi h2 v1 v2 ⊢
    have w1 : 0 ≤ s.toInt + (E.integers - s.toInt) + (E.bits - E.integers) := by omega
    have hkif := gq_kif s w1 q.rnd .SAT x
    obtain ⟨I, hI⟩ : ∃ I, I = E.integers - s.toInt := ⟨_, rfl⟩
    obtain ⟨f, hf⟩ : ∃ f, f = E.bits - E.integers := ⟨_, rfl⟩
    rw [← hI, ← hf] at klo khi v1 v2 hkif ⊢
    rw [← hI] at h2
    have hlow : -((s.toInt : ℚ) * p2 I) ≤ lo := klo.2.1
    have hup : hi < p2 I := khi.2.2
    constructor
    · rcases le_or_gt E.bits (Pk + Pi + Pf) with h | h
      · rw [min_eq_left h, ← hf]
      · rw [min_eq_right h.le]
        have hPf' : Pf = inp.f := by omega
        obtain ⟨f', hf'⟩ : ∃ f', f' = Pk + Pi + Pf - E.integers := ⟨_, rfl⟩
        rw [← hf']
        have hff : inp.f ≤ f' := by omega
        rw [gq_sat_cases s (g := inp.f) (by omega) hff q.rnd hg, gq_sat_cases s (g := inp.f) (by omega) (by omega) q.rnd hg]
        rw [gq_sat_cases s (g := inp.f) (by omega) (by omega) q.rnd hg] at v2
        have t1 : hi ≤ p2 I - p2 (-f') := grid_le_top (by omega) (grid_mono hff ghi) hup
        have t2 : p2 (-f) < p2 (-f') := p2_lt_p2 (by omega)
        generalize max x (-((s.toInt : ℚ) * p2 I)) = y at *
        rcases le_total y (p2 I - p2 (-f)) with hy | hy
        · rw [min_eq_left hy] at v2 ⊢
          exact min_eq_left (by linarith)
        · rw [min_eq_right hy] at v2
          linarith
    · rcases le_or_gt f Pf with h | h
      · exact isKif_mono hkif (by omega) (by simp only; omega) (by simp only; omega) h
      · have hPf' : Pf = inp.f := by omega
        rcases (by omega : E.bits = 0 ∨ 1 ≤ E.bits) with hb | hb
        · have := isKif_width_nonpos (toInt_cases s) (by omega) hkif
          rw [this]; exact hzero
        · have hmono := isKif_mono (f' := f) hkif (by omega) (by omega : s.toInt ≤ Pk) h2 le_rfl
          refine ⟨?_, hmono.2⟩
          simp only [hPf']
          rw [gq_sat_cases s (g := inp.f) (by omega) (by omega) q.rnd hg] at v1 v2 ⊢
          have t1 : hi ≤ p2 I - p2 (-f) := grid_le_top (by omega) khi.1 hup
          rcases le_total (max x (-((s.toInt : ℚ) * p2 I))) (p2 I - p2 (-f)) with hy | hy
          · rw [min_eq_left hy] at v1 ⊢
            rcases le_total x (-((s.toInt : ℚ) * p2 I)) with hx' | hx'
            · rw [max_eq_right hx'] at v1 ⊢
              rw [show -((s.toInt : ℚ) * p2 I) = lo from le_antisymm hlow v1]; exact glo
            · rw [max_eq_left hx']; exact hg
          · rw [min_eq_right hy] at v2 ⊢
            rw [show p2 I - p2 (-f) = hi from le_antisymm v2 t1]; exact ghi

/-- asking again changes nothing: the answer does not depend on the overflow mode -/
theorem FPQ.idem_elems {q : FPQ} {inp : KIF} (hne : q.elems ≠ [])
    (hel : ∀ e ∈ q.elems, (e.keepNegative = 0 ∨ e.keepNegative = 1) ∧ 0 ≤ e.bits) (hik : inp.k = 0 ∨ inp.k = 1)
    (hw : 1 ≤ (q.produced inp).1.k + (q.produced inp).1.i + (q.produced inp).1.f)
    (hall : ∀ e ∈ q.elems, e = KBI.pruned ∨
      e.keepNegative ≤ (q.produced inp).1.k ∧ e.integers - e.keepNegative ≤ (q.produced inp).1.i) :
    (q.produced inp).2.produced inp = q.produced inp := by
  obtain ⟨els, R, S⟩ := q
  have h := C35_elementwise_idempotent ⟨els, R, .WRAP⟩ inp hne hel hik ⟨rfl, hw, hall⟩
  have e1 : ((⟨els, R, S⟩ : FPQ).produced inp).1 = ((⟨els, R, .WRAP⟩ : FPQ).produced inp).1 := rfl
  have e3 : ∀ q' : FPQ, (({ q' with sat := S } : FPQ).produced inp).1 = (q'.produced inp).1 ∧
      (({ q' with sat := S } : FPQ).produced inp).2 = { (q'.produced inp).2 with sat := S } := by
    intro q'
    refine ⟨rfl, ?_⟩
    rw [FPQ.produced_snd, FPQ.produced_snd]
    by_cases hc : min inp.k q'.kif.k ≠ q'.kif.k ∨ retI inp q'.kif ≠ q'.kif.i ∨ min inp.f q'.kif.f ≠ q'.kif.f
    · rw [if_pos hc, if_pos (by exact hc)]; rfl
    · rw [if_neg hc, if_neg (by exact hc)]
  have e2 := (e3 ⟨els, R, .WRAP⟩).2
  simp only at e2
  refine Prod.ext ?_ ?_
  · rw [e2, (e3 _).1, h, e1]
  · rw [e2, (e3 _).2, h]

end HGQ
