import Verif.Props.Register

/-!
Definitions and lemmas for C91: storing every layer's output in its registered type.
-/

namespace HGQ

open Spec

/-! ### quantizers before and after they are asked -/

/-- the quantizer as built, or after it was asked behind the type `inp` -/
def FPQ.StateOf (q : FPQ) (inp : KIF) (q' : FPQ) : Prop := q' = q ∨ q' = (q.produced inp).2

theorem FPQ.StateOf.modes {q q' : FPQ} {inp : KIF} (h : q.StateOf inp q') : q'.rnd = q.rnd ∧ q'.sat = q.sat := by
  rcases h with rfl | rfl
  · exact ⟨rfl, rfl⟩
  · rw [q.produced_snd]; split_ifs <;> exact ⟨rfl, rfl⟩

theorem FPQ.StateOf.length {q q' : FPQ} {inp : KIF} (h : q.StateOf inp q') : q'.elems.length = q.elems.length := by
  rcases h with rfl | rfl
  · rfl
  · rw [q.produced_snd]; split_ifs
    · simp
    · rfl

theorem FPQ.StateOf.elems {q q' : FPQ} {inp : KIF} (h : q.StateOf inp q') (hq : q.Fits inp) (hik : inp.k = 0 ∨ inp.k = 1) :
    ∀ e ∈ q'.elems, (e.keepNegative = 0 ∨ e.keepNegative = 1) ∧ (0 ≤ e.bits ∨ e.keepNegative = 0 ∧ e.bits ≤ 0) ∧
      ∃ e0 ∈ q.elems, e.keepNegative ≤ e0.keepNegative := by
  have hel := hq.1
  have hk := FPQ.kif_k01 hel
  rcases h with rfl | rfl
  · exact fun e he => ⟨(hel e he).1, .inl (hel e he).2, e, he, le_rfl⟩
  · intro e he
    rcases hq.2 with ⟨a, b, c⟩ | hq'
    · rw [C35_covered_unchanged q inp a b c] at he
      exact ⟨(hel e he).1, .inl (hel e he).2, e, he, le_rfl⟩
    rw [q.produced_snd] at he
    split_ifs at he with hc
    · obtain ⟨e0, he0, rfl⟩ := List.mem_map.mp he
      obtain ⟨h1, h2⟩ := hel e0 he0
      refine ⟨?_, ?_, e0, he0, min_le_left _ _⟩
      · simp only; omega
      · simp only
        obtain ⟨-, h3, h4, h5⟩ | ⟨-, -, -, h3, -⟩ | ⟨-, h3, -⟩ | hp | ⟨-, h3, -, h4, -⟩ := hq'
        rotate_left 4
        · rw [q.produced_fst] at h4
          simp only at h4
          omega
        rotate_left 3
        · right
          rw [hp e0 he0, kif_const_pruned hp]
          simp only [KBI.pruned]; omega
        all_goals refine .inl (le_min h2 ?_)
        · rw [q.produced_fst] at h3 h4
          simp only at h3 h4
          rw [h3, h4]
          obtain ⟨l1, l2, l3⟩ := q.elem_le he0
          rcases le_total inp.f q.kif.f with hh | hh
          · rw [min_eq_left hh]; exact h5
          · rw [min_eq_right hh]; omega
        · rw [q.produced_fst] at h3
          simp only at h3; omega
        · rw [q.produced_fst] at h3
          simp only at h3; omega
    · exact ⟨(hel e he).1, .inl (hel e he).2, e, he, le_rfl⟩

theorem FPQ.StateOf.call {q q' : FPQ} {inp : KIF} (h : q.StateOf inp q') (hq : q.Fits inp) (hik : inp.k = 0 ∨ inp.k = 1)
    {x : ℚ} (hx : inp.Holds x) {e : ℕ} (he : e < q.elems.length) : q'.call e x = q.call e x := by
  rcases h with rfl | rfl
  · rfl
  · exact (FPQ.fits_keeps hq hik hx he).1

/-- a quantizer does not change its own outputs -/
theorem FPQ.call_idem {q : FPQ} (hel : ∀ e ∈ q.elems, (e.keepNegative = 0 ∨ e.keepNegative = 1) ∧
      (0 ≤ e.bits ∨ e.keepNegative = 0 ∧ e.bits ≤ 0)) {e : ℕ}
    (he : e < q.elems.length) (x : ℚ) : q.call e (q.call e x) = q.call e x := by
  unfold FPQ.call
  rw [getD_lt _ _ he]
  obtain ⟨h1, h2⟩ := hel _ (List.getElem_mem he)
  generalize q.elems[e] = E at *
  rcases h2 with h2 | ⟨h2, h3⟩
  swap
  · rw [KBI.apply_nonpos_bits h2 h3, KBI.apply_nonpos_bits h2 h3]
  obtain ⟨s, hs⟩ := bool_of_k h1
  obtain ⟨w, hw⟩ := Int.eq_ofNat_of_zero_le h2
  unfold KBI.apply
  rw [hs, hw]
  exact C02_idempotent x s w E.integers q.rnd q.rnd q.sat

theorem heterogeneous_map {es : List KBI} (f : KBI → KBI) (h : heterogeneous es = false) : heterogeneous (es.map f) = false := by
  rw [C09_heterogeneous_iff] at h ⊢
  intro a ha b hb
  obtain ⟨a0, ha0, rfl⟩ := List.mem_map.mp ha
  obtain ⟨b0, hb0, rfl⟩ := List.mem_map.mp hb
  rw [h a0 ha0 b0 hb0]

theorem FPQ.StateOf.homogeneous {q q' : FPQ} {inp : KIF} (h : q.StateOf inp q') (hh : heterogeneous q.elems = false) :
    heterogeneous q'.elems = false := by
  rcases h with rfl | rfl
  · exact hh
  · rw [q.produced_snd]; split_ifs
    · exact heterogeneous_map _ hh
    · exact hh

/-! ### what a layer's output goes to -/

/-- the layer only moves values for `get_request_kif`: `Reshape`, `Flatten`, `Concatenate` -/
def PLay.through : PLay → Bool
  | .move t _ _ => t
  | .concat _ _ => true
  | _ => false

/-- the layer at `n` only moves values -/
def PGraph.ThroughAt (g : PGraph) (n : ℕ) : Prop := ∃ l, g.lay n = some l ∧ l.through = true

/-- the quantizer at `m` is fed by the layer at `n`, directly or through layers that only move values -/
inductive Sees (g : PGraph) : ℕ → ℕ → Prop
  | direct {n m : ℕ} : n ∈ g.ins m → g.QuantAt m → Sees g n m
  | through {n p m : ℕ} : n ∈ g.ins p → g.ThroughAt p → Sees g p m → Sees g n m

/-- the output of the layer at `n`, directly or through layers that only move values, goes to a layer that computes with it,
or is an output of the model -/
inductive SeesOther (g : PGraph) : ℕ → Prop
  | output {n : ℕ} : (∀ m, n ∉ g.ins m) → SeesOther g n
  | other {n p : ℕ} : n ∈ g.ins p → ¬ g.QuantAt p → ¬ g.ThroughAt p → SeesOther g n
  | through {n p : ℕ} : n ∈ g.ins p → g.ThroughAt p → SeesOther g p → SeesOther g n

theorem PLay.after_through (l : PLay) (ts : List KIF) : (l.after ts).through = l.through := by cases l <;> rfl

theorem Between.lay {g g' : PGraph} (h : Between g g') {n : ℕ} {l : PLay} (hl : g.lay n = some l) :
    ∃ l', g'.lay n = some l' ∧ (l' = l ∨ l' = l.after (g.inTypes n)) := by
  obtain ⟨l', h1, h2⟩ := h.2 n l hl
  exact ⟨l', g'.lay_of h1, h2⟩

theorem Between.lay_none {g g' : PGraph} (h : Between g g') {n : ℕ} (hl : g.lay n = none) : g'.lay n = none := by
  unfold PGraph.lay; rw [h.at_none hl]; rfl

theorem Between.quant {g g' : PGraph} (h : Between g g') {n : ℕ} {q : FPQ} {o s : List ℕ} (hl : g.lay n = some (.quant q o s)) :
    ∃ q', g'.lay n = some (.quant q' o s) ∧ q.StateOf ((g.inTypes n).headD infKif) q' := by
  obtain ⟨l', h1, h2⟩ := h.lay hl
  rcases h2 with rfl | rfl
  · exact ⟨q, h1, .inl rfl⟩
  · exact ⟨_, h1, .inr rfl⟩

theorem Between.quantAt {g g' : PGraph} (h : Between g g') (n : ℕ) : g'.QuantAt n ↔ g.QuantAt n := by
  unfold PGraph.QuantAt
  cases hl : g.lay n with
  | none => rw [h.lay_none hl]
  | some l =>
    obtain ⟨l', h1, h2⟩ := h.lay hl
    rw [h1]
    rcases h2 with rfl | rfl
    · exact Iff.rfl
    · cases l <;> simp [PLay.after]

theorem Between.throughAt {g g' : PGraph} (h : Between g g') (n : ℕ) : g'.ThroughAt n ↔ g.ThroughAt n := by
  unfold PGraph.ThroughAt
  cases hl : g.lay n with
  | none => rw [h.lay_none hl]
  | some l =>
    obtain ⟨l', h1, h2⟩ := h.lay hl
    rw [h1]
    rcases h2 with rfl | rfl
    · exact Iff.rfl
    · simp [l.after_through]

theorem Between.sees {g g' : PGraph} (h : Between g g') {n m : ℕ} (hs : Sees g n m) : Sees g' n m := by
  induction hs with
  | direct h1 h2 => exact .direct (by rwa [h.ins]) ((h.quantAt _).mpr h2)
  | through h1 h2 _ ih => exact .through (by rwa [h.ins]) ((h.throughAt _).mpr h2) ih

theorem Between.seesOther {g g' : PGraph} (h : Between g g') {n : ℕ} (hs : SeesOther g n) : SeesOther g' n := by
  induction hs with
  | output h1 => exact .output fun m => by rw [h.ins]; exact h1 m
  | other h1 h2 h3 => exact .other (by rwa [h.ins]) (by rwa [h.quantAt]) (by rwa [h.throughAt])
  | through h1 h2 _ ih => exact .through (by rwa [h.ins]) ((h.throughAt _).mpr h2) ih

theorem PGraph.ins_lay {g : PGraph} {n m : ℕ} (h : m ∈ g.ins n) : ∃ l, g.lay n = some l := by
  have := PGraph.ins_lt h
  unfold PGraph.lay
  rw [List.getElem?_eq_getElem this]
  exact ⟨_, rfl⟩

/-- what `get_request_kif` sees of a quantizer that is fed -/
theorem sees_feeds {g : PGraph} (hwf : g.WF) {n m : ℕ} (hs : Sees g n m) {q : FPQ} {o s : List ℕ}
    (hm : g.lay m = some (.quant q o s)) : ∀ {fuel : ℕ}, g.length ≤ fuel + n + 1 →
    ∃ d ∈ (g.outs n).map (g.down fuel), Feeds d q := by
  induction hs with
  | @direct n m h1 h2 =>
    intro fuel hf
    have := hwf _ _ h1
    have := PGraph.ins_lt h1
    obtain ⟨fuel, rfl⟩ : ∃ k, fuel = k + 1 := ⟨fuel - 1, by omega⟩
    refine ⟨_, List.mem_map.mpr ⟨m, PGraph.mem_outs.mpr h1, rfl⟩, ?_⟩
    rw [PGraph.down, hm]
    exact .quant q
  | @through n p m h1 h2 _ ih =>
    intro fuel hf
    have := hwf _ _ h1
    have := PGraph.ins_lt h1
    obtain ⟨fuel, rfl⟩ : ∃ k, fuel = k + 1 := ⟨fuel - 1, by omega⟩
    obtain ⟨d, hd, hfd⟩ := ih hm (fuel := fuel) (by omega)
    refine ⟨_, List.mem_map.mpr ⟨p, PGraph.mem_outs.mpr h1, rfl⟩, ?_⟩
    obtain ⟨l, hl, ht⟩ := h2
    rw [PGraph.down, hl]
    cases l with
    | move t _ _ =>
      simp only [PLay.through] at ht
      subst ht
      exact .pass hd hfd
    | concat _ _ => exact .pass hd hfd
    | _ => cases ht

theorem seesOther_feeds {g : PGraph} (hwf : g.WF) {n : ℕ} (hs : SeesOther g n) : ∀ {fuel : ℕ}, g.length ≤ fuel + n + 1 →
    (g.outs n).map (g.down fuel) = [] ∨ ∃ d ∈ (g.outs n).map (g.down fuel), FeedsOther d := by
  induction hs with
  | @output n h1 =>
    intro fuel _
    left
    rw [List.map_eq_nil_iff, List.eq_nil_iff_forall_not_mem]
    intro m hm
    exact h1 m (PGraph.mem_outs.mp hm)
  | @other n p h1 h2 h3 =>
    intro fuel hf
    right
    have := hwf _ _ h1
    have := PGraph.ins_lt h1
    obtain ⟨fuel, rfl⟩ : ∃ k, fuel = k + 1 := ⟨fuel - 1, by omega⟩
    refine ⟨_, List.mem_map.mpr ⟨p, PGraph.mem_outs.mpr h1, rfl⟩, ?_⟩
    obtain ⟨l, hl⟩ := PGraph.ins_lay h1
    rw [PGraph.down, hl]
    cases l with
    | quant q o s => exact absurd ⟨q, o, s, hl⟩ h2
    | move t a b =>
      cases t with
      | true => exact absurd ⟨_, hl, rfl⟩ h3
      | false => exact .other
    | concat a b => exact absurd ⟨_, hl, rfl⟩ h3
    | _ => exact .other
  | @through n p h1 h2 _ ih =>
    intro fuel hf
    right
    have := hwf _ _ h1
    have := PGraph.ins_lt h1
    obtain ⟨fuel, rfl⟩ : ∃ k, fuel = k + 1 := ⟨fuel - 1, by omega⟩
    refine ⟨_, List.mem_map.mpr ⟨p, PGraph.mem_outs.mpr h1, rfl⟩, ?_⟩
    obtain ⟨l, hl, ht⟩ := h2
    have key : FeedsOther (.pass ((g.outs p).map (g.down fuel))) := by
      rcases ih (fuel := fuel) (by omega) with h | ⟨d, hd, hfd⟩
      · rw [h]; exact .dead
      · exact .pass hd hfd
    rw [PGraph.down, hl]
    cases l with
    | move t _ _ =>
      simp only [PLay.through] at ht
      subst ht
      exact key
    | concat _ _ => exact key
    | _ => cases ht

/-- a fused quantizer is the only consumer -/
theorem fusible_only {g : PGraph} {n : ℕ} {r : KifRS} (h : fusibleResult (g.downs n) = some r) :
    ∃ m q o s, g.outs n = [m] ∧ g.lay m = some (.quant q o s) ∧ heterogeneous q.elems = false ∧ r = ⟨q.kif, q.rnd, q.sat⟩ := by
  unfold fusibleResult at h
  split at h
  · rename_i q hd
    split_ifs at h with hh
    simp only [Option.some.injEq] at h
    unfold PGraph.downs at hd
    rw [List.map_eq_singleton_iff] at hd
    obtain ⟨m, h1, h2⟩ := hd
    cases hg : g.length with
    | zero => rw [hg] at h2; rw [PGraph.down] at h2; cases h2
    | succ k =>
      rw [hg, PGraph.down] at h2
      split at h2
      · rename_i q' o s hl
        cases h2
        exact ⟨m, q, o, s, h1, hl, by simpa using hh, h.symm⟩
      · cases h2
      · cases h2
      · cases h2
  · cases h

end HGQ
