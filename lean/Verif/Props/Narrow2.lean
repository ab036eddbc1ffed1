import Verif.Props.Narrow
import Verif.Props.Merge

/-!
C35 for heterogeneous quantizers: querying the produced type of a wrapping quantizer whose sign and integer bits it keeps.
-/

namespace HGQ

open Spec

/-- every output of a quantizer is a value of its type -/
theorem FPQ.call_holds (q : FPQ) (hel : ∀ e ∈ q.elems, (e.keepNegative = 0 ∨ e.keepNegative = 1) ∧ 0 ≤ e.bits)
    {e : ℕ} (he : e < q.elems.length) (x : ℚ) : q.kif.Holds (q.call e x) := by
  have hm : q.elems[e] ∈ q.elems := List.getElem_mem he
  obtain ⟨hk, hb⟩ := hel _ hm
  obtain ⟨h1, h2, h3⟩ := q.elem_le hm
  unfold FPQ.call
  rw [getD_lt _ _ he]
  generalize q.elems[e] = E at *
  obtain ⟨s, hs⟩ := bool_of_k hk
  rw [E.apply_eq_gq s hs]
  have := gq_kif s (i := E.integers - E.keepNegative) (f := E.bits - E.integers) (by rw [← hs]; omega) q.rnd q.sat x
  refine isKif_mono this ?_ (by rw [← hs]; exact h1) h2 h3
  rw [← hs]; omega

/-- a wrapping quantizer computes the same with fewer fractional bits if its argument has no more -/
theorem gq_wrap_grid (s : Bool) {i f f' g : ℤ} (hw : 0 ≤ s.toInt + i + f) (hw' : 0 ≤ s.toInt + i + f') (hf : g ≤ f) (hf' : g ≤ f')
    (R : Rnd) {x : ℚ} (hx : ∃ n : ℤ, x = n * p2 (-g)) : gq s i f R .WRAP x = gq s i f' R .WRAP x := by
  obtain ⟨a, ha⟩ := gq_wrap s hw R x
  obtain ⟨b, hb⟩ := gq_wrap s hw' R x
  rw [rv_of_grid R f (grid_mono hf hx)] at ha
  rw [rv_of_grid R f' (grid_mono hf' hx)] at hb
  exact kif_mod_unique s (gq_kif s hw R .WRAP x) (gq_kif s hw' R .WRAP x) (b - a) (by push_cast; linarith)

/-- the output of a wrapping quantizer has no more fractional bits than its argument -/
theorem gq_wrap_on_grid (s : Bool) {i f g : ℤ} (hw : 0 ≤ s.toInt + i + f) (hf : g ≤ f)
    (R : Rnd) {x : ℚ} (hx : ∃ n : ℤ, x = n * p2 (-g)) : ∃ n : ℤ, gq s i f R .WRAP x = n * p2 (-g) := by
  obtain ⟨a, ha⟩ := gq_wrap s hw R x
  rw [rv_of_grid R f (grid_mono hf hx)] at ha
  rcases le_or_gt 0 (s.toInt + i + g) with h | h
  · obtain ⟨m, hm⟩ := grid_p2 h
    obtain ⟨n, hn⟩ := hx
    refine ⟨n - a * m, ?_⟩
    push_cast
    rw [sub_mul, mul_assoc, ← hm, ← hn]; linarith
  · refine ⟨0, ?_⟩
    obtain ⟨n, hn⟩ := hx
    obtain ⟨m, hm⟩ := grid_p2 (i := -g) (f := -(s.toInt + i)) (by omega)
    rw [neg_neg] at hm
    rw [Int.cast_zero, zero_mul]
    have hz : IsKif s.toInt i f 0 := ⟨⟨0, by simp⟩, by
      have := p2_pos i
      rcases toInt_cases s with h | h <;> rw [h]
      · simp
      · change -(_ * p2 i) ≤ _; push_cast; linarith, p2_pos i⟩
    exact kif_mod_unique s (gq_kif s hw R .WRAP x) hz (n * m - a) (by
      push_cast; rw [sub_mul, mul_assoc, ← hm, ← hn]; linarith)

/-- **C35**, heterogeneous quantizers. For a wrapping quantizer, elements differing as they may, whose sign and integer
bits the query keeps: the query changes no output on values of the upstream type, and every output is a value of the
returned type. -/
theorem C35_heterogeneous_wrap (q : FPQ) (inp : KIF) (hS : q.sat = .WRAP)
    (hel : ∀ e ∈ q.elems, (e.keepNegative = 0 ∨ e.keepNegative = 1) ∧ 0 ≤ e.bits)
    (hk : (q.produced inp).1.k = q.kif.k) (hi : (q.produced inp).1.i = q.kif.i)
    (hw : 0 ≤ q.kif.k + q.kif.i + inp.f)
    (x : ℚ) (hx : inp.Holds x) (e : ℕ) (he : e < q.elems.length) :
    (q.produced inp).2.call e x = q.call e x ∧ (q.produced inp).1.Holds (q.call e x) := by
  have hh := q.call_holds hel he x
  rw [q.produced_fst] at hk hi ⊢
  rw [q.produced_snd]
  simp only at hk hi ⊢
  rw [hk, hi]
  rcases le_or_gt q.kif.f inp.f with hf | hf
  · rw [min_eq_right hf, if_neg (by simp)]
    exact ⟨rfl, hh⟩
  rw [min_eq_left hf.le, if_pos (by omega)]
  have hm : q.elems[e] ∈ q.elems := List.getElem_mem he
  obtain ⟨hek, heb⟩ := hel _ hm
  obtain ⟨l1, l2, l3⟩ := q.elem_le hm
  unfold FPQ.call at hh ⊢
  rw [getD_lt _ _ he] at hh ⊢
  rw [getD_lt _ _ (by simpa using he)]
  simp only [List.getElem_map]
  generalize q.elems[e] = E at *
  obtain ⟨s, hs⟩ := bool_of_k hek
  have e1 : min E.keepNegative q.kif.k = E.keepNegative := min_eq_left l1
  have e2 : min E.integers (q.kif.k + q.kif.i) = E.integers := min_eq_left (by omega)
  rw [KBI.apply_eq_gq E s hs] at hh
  rw [e1, e2, KBI.apply_eq_gq E s hs, KBI.apply_eq_gq _ s (by exact hs)]
  simp only
  rw [hS] at hh ⊢
  have hg : ∃ n : ℤ, x = n * p2 (-inp.f) := hx.1
  have w1 : 0 ≤ s.toInt + (E.integers - E.keepNegative) + (E.bits - E.integers) := by omega
  constructor
  · rcases le_or_gt E.bits (q.kif.k + q.kif.i + inp.f) with h | h
    · rw [min_eq_left h]
    · rw [min_eq_right h.le]
      exact gq_wrap_grid s (g := inp.f) (by omega) w1 (by omega) (by omega) q.rnd hg
  · rcases le_or_gt (E.bits - E.integers) inp.f with h | h
    · have := gq_kif s w1 q.rnd .WRAP x
      exact isKif_mono this (by omega) (by simp only; omega) (by simp only; omega) h
    · exact ⟨gq_wrap_on_grid s w1 h.le q.rnd hg, hh.2⟩

/-- **C35**, heterogeneous quantizers, repeated queries. -/
theorem C35_heterogeneous_idempotent (q : FPQ) (inp : KIF) (hne : q.elems ≠ [])
    (hk : (q.produced inp).1.k = q.kif.k) (hi : (q.produced inp).1.i = q.kif.i) :
    (q.produced inp).2.produced inp = q.produced inp := by
  have hfst := q.produced_fst inp
  have hsnd := q.produced_snd inp
  rw [hfst] at hk hi
  simp only at hk hi
  rw [hk, hi] at hfst hsnd
  rcases le_or_gt q.kif.f inp.f with hf | hf
  · rw [min_eq_right hf, if_neg (by simp)] at hsnd
    rw [hsnd]
  rw [min_eq_left hf.le] at hfst hsnd
  rw [if_pos (by omega)] at hsnd
  have hp : (q.produced inp).2 = { q with elems := q.elems.map fun e =>
      { keepNegative := e.keepNegative, bits := min e.bits (q.kif.k + q.kif.i + inp.f), integers := e.integers } } := by
    rw [hsnd]
    congr 1
    apply List.map_congr_left
    intro e he
    obtain ⟨l1, l2, l3⟩ := q.elem_le he
    rw [min_eq_left l1, min_eq_left (by omega : e.integers ≤ _)]
  clear hsnd
  generalize q.produced inp = P at *
  obtain ⟨P1, P2⟩ := P
  simp only at hfst hp ⊢
  have ek : P2.kif.k = q.kif.k := by
    rw [hp]; unfold FPQ.kif resultTKif; simp only [List.map_map]; rfl
  have ei : P2.kif.i = q.kif.i := by
    rw [hp]; unfold FPQ.kif resultTKif; simp only [List.map_map]; rfl
  have ef : inp.f ≤ P2.kif.f := by
    obtain ⟨E, hE, hEf⟩ := List.mem_map.mp (listMax_mem (l := q.elems.map fun e => e.bits - e.integers) (by simpa using hne))
    have hEf' : E.bits - E.integers = q.kif.f := hEf
    obtain ⟨l1, l2, l3⟩ := q.elem_le hE
    have hm : (⟨E.keepNegative, min E.bits (q.kif.k + q.kif.i + inp.f), E.integers⟩ : KBI) ∈ P2.elems := by
      rw [hp]; exact List.mem_map.mpr ⟨E, hE, rfl⟩
    have := (P2.elem_le hm).2.2
    simp only at this
    omega
  have hret : retI inp P2.kif = q.kif.i := by
    unfold retI at hi ⊢
    rw [ei]
    rw [if_neg (by omega)] at hi ⊢
    exact hi
  refine Prod.ext ?_ ?_
  · rw [P2.produced_fst, hfst, hret, ek, min_eq_left ef, hk]
  · rw [P2.produced_snd, hret, ek, ei, min_eq_left ef, hk]
    simp only
    split_ifs
    · have : (P2.elems.map fun e => KBI.mk (min e.keepNegative q.kif.k) (min e.bits (q.kif.k + q.kif.i + inp.f))
          (min e.integers (q.kif.k + q.kif.i))) = P2.elems := by
        conv_rhs => rw [← List.map_id P2.elems]
        apply List.map_congr_left
        intro e he
        rw [hp] at he
        obtain ⟨e0, he0, rfl⟩ := List.mem_map.mp he
        obtain ⟨l1, l2, l3⟩ := q.elem_le he0
        simp only [id, KBI.mk.injEq]
        omega
      rw [this]
    · rfl

-- two elements with different fractional bits behind a type with fewer: both are kept
example : let q : FPQ := ⟨[⟨1, 8, 3⟩, ⟨1, 5, 2⟩], .RND, .WRAP⟩
    let inp : KIF := ⟨1, 4, 3⟩
    heterogeneous q.elems = true ∧ (q.produced inp).1.k = q.kif.k ∧ (q.produced inp).1.i = q.kif.i ∧
    0 ≤ q.kif.k + q.kif.i + inp.f ∧ (q.produced inp).1 ≠ q.kif ∧ inp.holdsB (-59 / 8) = true ∧
    q.call 0 (-59 / 8) = 5 / 8 ∧ (q.produced inp).2.call 0 (-59 / 8) = 5 / 8 := by decide +kernel

end HGQ
