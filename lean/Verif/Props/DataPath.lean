import Verif.Lemmas.DataPath

/-!
C91: a data path that stores the output of every layer in the type registered for it computes the same outputs as the
proxy model.
-/

namespace HGQ

open Spec

/-- a tensor stored in the type registered for the layer, `none` for a lookup table, which registers none.
proxy/precision_derivation.py lines 255-256 (`result_t`), 289-302, 412-419. -/
def storeAs (t : Option KifRS) (x : List ℚ) : List ℚ :=
  match t with
  | none => x
  | some t => x.map (t.kif.cast t.rnd t.sat)

/-- The values in a data path that applies the layers of the model one after the other and stores the output of the layer at
position `n` in the type `r n`. The types are the `result_t` of proxy/precision_derivation.py lines 305-371. -/
def PGraph.evalStored (g : PGraph) (r : ℕ → Option KifRS) (xs : ℕ → List ℚ) : List (List ℚ) :=
  g.foldl (fun env e => env ++ [storeAs (r env.length) (match e.1 with
    | .input => xs env.length
    | l => l.eval (e.2.map (env.getD · [])))]) []

/-- `r n` is a result type that `get_result_kifRS` gives for the layer at position `n` at some time while layers of the model
are being registered; a lookup table has none. -/
def Registered (g : PGraph) (r : ℕ → Option KifRS) : Prop :=
  ∀ n l, g.lay n = some l →
    ((∃ L, l = .lut L) → r n = none) ∧
    ((¬ ∃ L, l = .lut L) → ∃ off ns t, ((registerAll off ns ⟨g, []⟩).2.graph.result n).1 = some t ∧ r n = some t)

/-- the only consumer of the layer at `n` is a homogeneous quantizer, whose type becomes the layer's own -/
def PGraph.FusedAt (g : PGraph) (n : ℕ) : Prop :=
  ∃ m q o s, g.outs n = [m] ∧ g.lay m = some (.quant q o s) ∧ heterogeneous q.elems = false

/-- When storing outputs in the registered types `r` is harmless. -/
structure PGraph.DataPath (g : PGraph) (r : ℕ → Option KifRS) : Prop where
  /-- quantizers and layers that move values have one input -/
  single : ∀ n, (g.QuantAt n ∨ ∃ b k src, g.lay n = some (.move b k src)) → ∃ i, g.ins n = [i]
  /-- derived types are types and stay within the types of unknown layers -/
  size : ∀ n, g.isInput n = false → (g.typeOf n).i ≤ 65535 ∧ (g.typeOf n).f ≤ 65535 ∧
    0 ≤ (g.typeOf n).k + (g.typeOf n).i + (g.typeOf n).f
  /-- registered types have a bit -/
  bits : ∀ n t, r n = some t → ¬ g.FusedAt n → 1 ≤ t.kif.k + t.kif.i + t.kif.f
  /-- the step of a registered type is not larger than the range of the produced values -/
  reach : ∀ n t, r n = some t → g.isInput n = false → ¬ g.FusedAt n → 0 ≤ (g.typeOf n).i + t.kif.f
  /-- consumers that are not fused round by `TRN` or `RND`, do not wrap by sign and magnitude, and wrap to a signed range
  only if the values are signed -/
  modes : ∀ n m q o s, Sees g n m → g.lay m = some (.quant q o s) → ¬ g.FusedAt n →
    (q.rnd = .TRN ∨ q.rnd = .RND) ∧ q.sat ≠ .WRAP_SM ∧ (q.sat = .WRAP → ∀ e ∈ q.elems, e.keepNegative ≤ (g.typeOf n).k)
  /-- quantizers of the model's inputs saturate or wrap, within the range of an unknown layer -/
  inputs : ∀ n m q o s, g.isInput n = true → n ∈ g.ins m → g.lay m = some (.quant q o s) →
    q.kif.i < 65535 ∧ q.kif.f ≤ 65535 ∧ (q.sat = .SAT ∨ q.sat = .WRAP)

theorem PGraph.quant_not_through {g : PGraph} {m : ℕ} (h : g.QuantAt m) : ¬ g.ThroughAt m := by
  obtain ⟨q, o, s, hq⟩ := h
  rintro ⟨l, hl, ht⟩
  rw [hq] at hl
  cases hl
  cases ht

theorem fused_sees {g : PGraph} {n m0 m : ℕ} (ho : g.outs n = [m0]) (hq : g.QuantAt m0) (h : Sees g n m) : m = m0 := by
  cases h with
  | direct h1 _ => simpa [ho] using PGraph.mem_outs.mpr h1
  | through h1 h2 _ =>
    have := PGraph.mem_outs.mpr h1
    rw [ho, List.mem_singleton] at this
    subst this
    exact absurd h2 (PGraph.quant_not_through hq)

theorem fused_seesOther {g : PGraph} {n m0 : ℕ} (ho : g.outs n = [m0]) (hq : g.QuantAt m0) : ¬ SeesOther g n := by
  intro h
  cases h with
  | output h1 => exact h1 m0 (PGraph.mem_outs.mp (by simp [ho]))
  | other h1 h2 _ =>
    have := PGraph.mem_outs.mpr h1
    rw [ho, List.mem_singleton] at this
    subst this
    exact h2 hq
  | through h1 h2 _ =>
    have := PGraph.mem_outs.mpr h1
    rw [ho, List.mem_singleton] at this
    subst this
    exact PGraph.quant_not_through hq h2

theorem Between.outs {g g' : PGraph} (h : Between g g') (n : ℕ) : g'.outs n = g.outs n := by
  unfold PGraph.outs
  rw [h.1]
  congr 1
  funext m
  rw [h.ins]

theorem Between.isInput {g g' : PGraph} (h : Between g g') (n : ℕ) : g'.isInput n = g.isInput n := by
  unfold PGraph.isInput
  cases hl : g.lay n with
  | none => rw [h.lay_none hl]
  | some l =>
    obtain ⟨l', h1, h2⟩ := h.lay hl
    rw [h1]
    rcases h2 with rfl | rfl
    · rfl
    · cases l <;> rfl

theorem Between.quant' {g g' : PGraph} (h : Between g g') {n : ℕ} {q' : FPQ} {o s : List ℕ}
    (hl : g'.lay n = some (.quant q' o s)) :
    ∃ q, g.lay n = some (.quant q o s) ∧ q.StateOf ((g.inTypes n).headD infKif) q' := by
  obtain ⟨q, o', s', hq⟩ := (h.quantAt n).mp ⟨q', o, s, hl⟩
  obtain ⟨q'', h1, h2⟩ := h.quant hq
  rw [hl] at h1
  cases h1
  exact ⟨q, hq, h2⟩

theorem down_quant {g : PGraph} {m : ℕ} {q : FPQ} {o s : List ℕ} (h : g.lay m = some (.quant q o s)) :
    g.down g.length m = .quant q := by
  cases hg : g.length with
  | zero =>
    unfold PGraph.lay at h
    rw [List.getElem?_eq_none (by omega)] at h
    cases h
  | succ k => rw [PGraph.down, h]

/-- casting to the merged type keeps a value in the type it came from -/
theorem merge_cast_holds {t r : KIF} (hk : t.k = 0 ∨ t.k = 1)
    (hw : 1 ≤ (mergePrecision t r).k + (mergePrecision t r).i + (mergePrecision t r).f)
    (hr : 0 ≤ t.i + (mergePrecision t r).f) {x : ℚ} (hx : t.Holds x) :
    t.Holds ((mergePrecision t r).cast .TRN .WRAP x) := by
  obtain ⟨s, hs⟩ := bool_of_k hk
  rw [KIF.cast_eq_gq _ s (by exact hs)]
  have e1 : (mergePrecision t r).k = t.k := rfl
  have e2 : (mergePrecision t r).i = if t.f > r.f ∧ t.i ≤ r.i then min t.i r.i + 1 else min t.i r.i := rfl
  have e3 : (mergePrecision t r).f = min t.f r.f := rfl
  rw [e1] at hw
  generalize (mergePrecision t r).i = mi at *
  generalize (mergePrecision t r).f = mf at *
  have hkif := gq_kif s (i := mi) (f := mf) (by rw [← hs]; omega) .TRN .WRAP x
  have hx' : IsKif s.toInt t.i t.f x := by rw [← hs]; exact hx
  unfold KIF.Holds
  rw [hs]
  by_cases hc : t.f > r.f ∧ t.i ≤ r.i
  · rw [if_pos hc] at e2
    have hg := cast_trn_no_overflow s hx' (i := mi) (f := mf) (by omega) (by omega) (by rw [← hs]; omega)
    rw [hg]
    obtain ⟨g1, g2, g3⟩ := hx'
    refine ⟨grid_refine (by omega) (rv_grid .TRN mf x), ?_, lt_of_le_of_lt (rv_trn_le mf x).1 g3⟩
    have := rv_mono .TRN mf g2
    rwa [rv_of_grid .TRN mf] at this
    rcases toInt_cases s with h | h <;> rw [h]
    · exact ⟨0, by simp⟩
    · have := grid_neg (grid_p2 hr)
      change ∃ n : ℤ, -(((1 : ℤ) : ℚ) * p2 t.i) = n * p2 (-mf)
      simpa using this
  · rw [if_neg hc] at e2
    exact isKif_mono hkif (by rcases toInt_cases s with h | h <;> omega) le_rfl (by omega) (by omega)

section
variable {g : PGraph} (hwf : g.WF) (hfit : g.Fits)
include hwf hfit

/-- the three ways a result type comes about -/
theorem Between.result_cases {g' : PGraph} (hb : Between g g') {n : ℕ} {t : KifRS} (h : (g'.result n).1 = some t) :
    (∃ m q' o s, g.outs n = [m] ∧ g'.lay m = some (.quant q' o s) ∧
      ∀ e < q'.elems.length, ∀ x, t.kif.cast t.rnd t.sat x = q'.call e x) ∨
    (¬ g.FusedAt n ∧ g.isInput n = true ∧ deriveFromNext (g'.downs n) = some t) ∨
    (¬ g.FusedAt n ∧ g.isInput n = false ∧ ∃ g'', Between g g'' ∧
      t = ⟨mergePrecision (g.typeOf n) (requestList (g''.downs n)), .TRN, .WRAP⟩) := by
  unfold PGraph.result at h
  split at h
  · rename_i r hr
    simp only [Option.some.injEq] at h
    subst h
    left
    obtain ⟨m, q, o, s, h1, h2, -, -⟩ := fusible_only hr
    obtain ⟨q1, h3, h4⟩ := C67_fused_quantizer _ _ hr
    refine ⟨m, q, o, s, by rw [← hb.outs]; exact h1, h2, ?_⟩
    have : q1 = q := by
      unfold PGraph.downs at h3
      rw [h1, List.map_singleton, down_quant h2] at h3
      simpa using h3.symm
    rw [← this]; exact h4
  · rename_i hr
    right
    have hnf : ¬ g.FusedAt n := by
      rintro ⟨m, q, o, s, h1, h2, h3⟩
      obtain ⟨q', h4, h5⟩ := hb.quant h2
      have : g'.downs n = [.quant q'] := by
        unfold PGraph.downs
        rw [hb.outs, h1, List.map_singleton, down_quant h4]
      rw [this] at hr
      simp [fusibleResult, h5.homogeneous h3] at hr
    rw [hb.isInput] at h
    split_ifs at h with hi
    · exact .inl ⟨hnf, hi, h⟩
    · right
      obtain ⟨g'', h1, h2⟩ := Between.produced' hwf hfit g' n hb
      rw [hb.1] at h
      simp only [h1, Option.some.injEq] at h
      exact ⟨hnf, by simpa using hi, g'', h2, h.symm⟩

/-- values keep their meaning on the way through layers that move values -/
theorem through_holds (hs : ∀ n, (g.QuantAt n ∨ ∃ b k src, g.lay n = some (.move b k src)) → ∃ i, g.ins n = [i])
    {n p : ℕ} (h1 : n ∈ g.ins p) (h2 : g.ThroughAt p) {x : ℚ} (hx : (g.typeOf n).Holds x) : (g.typeOf p).Holds x := by
  obtain ⟨l, hl, ht⟩ := h2
  rw [PGraph.typeOf_eq hwf hl]
  cases l with
  | move b k src =>
    obtain ⟨i, hi⟩ := hs p (.inr ⟨b, k, src, hl⟩)
    rw [hi, List.mem_singleton] at h1
    subst h1
    unfold PGraph.inTypes
    rw [hi]
    exact hx
  | concat k src =>
    have := PGraph.types_k01 hwf hfit n
    exact C34_concatenate _ _ (List.mem_map.mpr ⟨n, h1, rfl⟩) (by omega) x hx
  | _ => cases ht

theorem sees_holds (hs : ∀ n, (g.QuantAt n ∨ ∃ b k src, g.lay n = some (.move b k src)) → ∃ i, g.ins n = [i])
    {n m : ℕ} (h : Sees g n m) {x : ℚ} (hx : (g.typeOf n).Holds x) : ((g.inTypes m).headD infKif).Holds x := by
  induction h with
  | @direct n m h1 h2 =>
    obtain ⟨i, hi⟩ := hs m (.inl h2)
    rw [hi, List.mem_singleton] at h1
    subst h1
    unfold PGraph.inTypes
    rw [hi]
    exact hx
  | through h1 h2 _ ih => exact ih (through_holds hwf hfit hs h1 h2 hx)

theorem stored_value {r : ℕ → Option KifRS} (hdp : g.DataPath r) {g' : PGraph} (hb : Between g g') {n : ℕ} {t : KifRS}
    (ht : (g'.result n).1 = some t) (hr : r n = some t) {x : ℚ} (hx : (g.typeOf n).Holds x) :
    (SeesOther g n → t.kif.cast t.rnd t.sat x = x) ∧
    ((∃ p, n ∈ g.ins p ∧ g.ThroughAt p) → (g.typeOf n).Holds (t.kif.cast t.rnd t.sat x)) ∧
    ∀ G, Between g G → ∀ m Q o s, Sees g n m → G.lay m = some (.quant Q o s) → ∀ e < Q.elems.length,
      Q.call e (t.kif.cast t.rnd t.sat x) = Q.call e x := by
  have hkn := PGraph.types_k01 hwf hfit n
  rcases Between.result_cases hwf hfit hb ht with ⟨m0, q', o', s', ho, hq', hc⟩ | ⟨hnf, hi, hd⟩ | ⟨hnf, hi, g'', hb'', rfl⟩
  · -- fused
    have hqa : g.QuantAt m0 := (hb.quantAt m0).mp ⟨q', o', s', hq'⟩
    refine ⟨fun h => absurd h (fused_seesOther ho hqa), ?_, ?_⟩
    · rintro ⟨p, h1, h2⟩
      have := PGraph.mem_outs.mpr h1
      rw [ho, List.mem_singleton] at this
      subst this
      exact absurd h2 (PGraph.quant_not_through hqa)
    · intro G hG m Q o s hs hQ e he
      have hm := fused_sees ho hqa hs
      subst hm
      have hin := sees_holds hwf hfit hdp.single hs hx
      have hk := headD_k01 (PGraph.inTypes_k01 hwf hfit m)
      obtain ⟨q, hq, st⟩ := hG.quant' hQ
      obtain ⟨q1, hq1, st'⟩ := hb.quant' hq'
      rw [hq] at hq1
      cases hq1
      have hf : q.Fits ((g.inTypes m).headD infKif) := (hfit m _ hq).2.2
      have he' : e < q.elems.length := by rwa [← st.length]
      rw [hc e (by rw [st'.length]; exact he') x, st'.call hf hk hin he', ← st.call hf hk hin he']
      exact FPQ.call_idem (fun e he => ⟨(st.elems hf hk e he).1, (st.elems hf hk e he).2.1⟩) he x
  · -- input
    have hall : ∀ p, n ∈ g.ins p → g.QuantAt p := by
      intro p hp
      have hmem : g'.down g'.length p ∈ g'.downs n :=
        List.mem_map.mpr ⟨p, by rw [hb.outs]; exact PGraph.mem_outs.mpr hp, rfl⟩
      unfold deriveFromNext at hd
      split at hd
      · cases hd
      · cases hd
      rename_i q0 qs hqs
      rw [quantsOf_mem hqs, List.mem_map] at hmem
      obtain ⟨q, -, hq⟩ := hmem
      rw [← hb.quantAt]
      cases hg : g'.length with
      | zero => rw [hg, PGraph.down] at hq; cases hq
      | succ k =>
        rw [hg, PGraph.down] at hq
        split at hq
        · rename_i q' o s hl
          exact ⟨q', o, s, hl⟩
        · cases hq
        · cases hq
        · cases hq
    have hne : ∃ p, n ∈ g.ins p := by
      by_contra hc
      push Not at hc
      have : g.outs n = [] := by
        rw [List.eq_nil_iff_forall_not_mem]
        exact fun m hm => hc m (PGraph.mem_outs.mp hm)
      unfold PGraph.downs at hd
      rw [hb.outs, this] at hd
      simp [deriveFromNext, quantsOf] at hd
    refine ⟨?_, ?_, ?_⟩
    · intro h
      exfalso
      obtain ⟨p0, hp0⟩ := hne
      cases h with
      | output h1 => exact h1 _ hp0
      | other h1 h2 _ => exact h2 (hall _ h1)
      | through h1 h2 _ => exact PGraph.quant_not_through (hall _ h1) h2
    · rintro ⟨p, h1, h2⟩
      exact absurd h2 (PGraph.quant_not_through (hall p h1))
    · intro G hG m Q o s hs hQ e he
      have hnm : n ∈ g.ins m := by
        cases hs with
        | direct h1 _ => exact h1
        | through h1 h2 _ => exact absurd h2 (PGraph.quant_not_through (hall _ h1))
      obtain ⟨q, hq, st⟩ := hG.quant' hQ
      obtain ⟨i1, i2, i3⟩ := hdp.inputs n m q o s hi hnm hq
      obtain ⟨hm1, -, -⟩ := hdp.modes n m q o s hs hq hnf
      have hf : q.Fits ((g.inTypes m).headD infKif) := (hfit m _ hq).2.2
      have hinf : (g.inTypes m).headD infKif = infKif := by
        obtain ⟨i, hi'⟩ := hdp.single m (.inl ⟨q, o, s, hq⟩)
        rw [hi', List.mem_singleton] at hnm
        subst hnm
        unfold PGraph.inTypes
        rw [hi']
        show g.typeOf n = infKif
        unfold PGraph.isInput at hi
        split at hi
        · rename_i hl
          rw [PGraph.typeOf_eq hwf hl]; rfl
        · cases hi
      have hkq := FPQ.kif_k01 hf.1
      have hsame : (q.produced infKif).2 = q := by
        rw [q.produced_snd, if_neg]
        have a1 : infKif.k = 1 := rfl
        have a2 : infKif.i = 65535 := rfl
        have a3 : infKif.f = 65535 := rfl
        simp only [retI, a1, a2, a3]
        rw [if_neg (by omega)]
        omega
      have hQq : Q = q := by
        rcases st with rfl | h
        · rfl
        · rw [h, hinf, hsame]
      subst hQq
      obtain ⟨q', hq', st'⟩ := hb.quant hq
      have hq'q : q' = Q := by
        rcases st' with rfl | h
        · rfl
        · rw [h, hinf, hsame]
      subst hq'q
      have hmem : Down.quant q' ∈ g'.downs n :=
        List.mem_map.mpr ⟨m, by rw [hb.outs]; exact PGraph.mem_outs.mpr hnm, down_quant hq'⟩
      refine C37_input_cast_invisible (g'.downs n) t hd (hdp.bits n t hr hnf) ?_ q' hmem hm1 i3 e he
        (hf.1 _ (List.getElem_mem he)).1 (hf.1 _ (List.getElem_mem he)).2 x
      -- the sign of the derived type
      unfold deriveFromNext at hd
      split at hd
      · cases hd
      · cases hd
      rename_i q0 qs hqs
      split_ifs at hd with hsat
      simp only [Option.some.injEq] at hd
      rw [← hd]
      apply listMax_k01
      intro a ha
      obtain ⟨q1, hq1, rfl⟩ := List.mem_map.mp ha
      have : Down.quant q1 ∈ g'.downs n := by rw [quantsOf_mem hqs]; exact List.mem_map.mpr ⟨q1, hq1, rfl⟩
      obtain ⟨p, hp, hdp'⟩ := List.mem_map.mp this
      rw [hb.outs] at hp
      have hp' := PGraph.mem_outs.mp hp
      obtain ⟨q2, o2, s2, hq2⟩ := hall p hp'
      obtain ⟨q3, h3, st3⟩ := hb.quant hq2
      rw [down_quant h3] at hdp'
      cases hdp'
      have hf2 : q2.Fits ((g.inTypes p).headD infKif) := (hfit p _ hq2).2.2
      have hk2 := headD_k01 (PGraph.inTypes_k01 hwf hfit p)
      apply listMax_k01
      intro a ha
      obtain ⟨e, he, rfl⟩ := List.mem_map.mp ha
      exact (st3.elems hf2 hk2 e he).1
  · -- merged
    have hwf'' : g''.WF := fun n m hm => hwf n m (by rwa [hb''.ins n] at hm)
    obtain ⟨z1, z2, z3⟩ := hdp.size n hi
    have hbits := hdp.bits n _ hr hnf
    have hreach := hdp.reach n _ hr hi hnf
    have hnl : ∀ {fuel : ℕ}, fuel = g''.length → g''.length ≤ fuel + n + 1 := by intro f h; omega
    have hmem := merge_cast_holds hkn hbits hreach hx
    refine ⟨?_, fun _ => hmem, ?_⟩
    · intro hso
      exact C36_other_exact (g.typeOf n) hkn z1 z2 (g''.downs n) (seesOther_feeds hwf'' (hb''.seesOther hso) (by omega)) z3 x hx
    · intro G hG m Q o s hs hQ e he
      obtain ⟨q, hq, st⟩ := hG.quant' hQ
      obtain ⟨m1, m2, m3⟩ := hdp.modes n m q o s hs hq hnf
      have hf : q.Fits ((g.inTypes m).headD infKif) := (hfit m _ hq).2.2
      have hk := headD_k01 (PGraph.inTypes_k01 hwf hfit m)
      obtain ⟨q', hq', st'⟩ := hb''.quant hq
      have he' : e < q.elems.length := by rwa [← st.length]
      have he2 : e < q'.elems.length := by rwa [st'.length]
      obtain ⟨d, hd, hfd⟩ := sees_feeds hwf'' (hb''.sees hs) hq' (fuel := g''.length) (by omega)
      have hin := sees_holds hwf hfit hdp.single hs hx
      have hin' := sees_holds hwf hfit hdp.single hs hmem
      obtain ⟨y1, y2, e0, y3, y4⟩ := st'.elems hf hk _ (List.getElem_mem he2)
      rcases y2 with y2 | ⟨y5, y6⟩
      swap
      · have hz : ∀ z, q'.call e z = 0 := fun z => by
          unfold FPQ.call
          rw [getD_lt _ _ he2]
          exact KBI.apply_nonpos_bits y5 y6 _ _ _
        rw [st.call hf hk hin' he', st.call hf hk hin he', ← st'.call hf hk hin' he', ← st'.call hf hk hin he', hz, hz]
      have := C36_merged_cast_invisible (g.typeOf n) hkn z1 (g''.downs n) d hd q' hfd hbits (by rw [st'.modes.1]; exact m1) e he2
        y1 y2 (fun h => .inl (y4.trans (m3 (by rw [← st'.modes.2]; exact h) e0 y3)))
        (fun h => absurd (by rw [← st'.modes.2]; exact h) m2) x hx
      rw [st'.call hf hk hin' he', st'.call hf hk hin he'] at this
      rw [st.call hf hk hin' he', st.call hf hk hin he']
      exact this

end

/-! ### the stored values -/

/-- the stored output of the layer at position `n` -/
def PGraph.stored (g : PGraph) (r : ℕ → Option KifRS) (xs : ℕ → List ℚ) (n : ℕ) : List ℚ := (g.evalStored r xs).getD n []

theorem PGraph.evalStored_scan (g : PGraph) (r : ℕ → Option KifRS) (xs : ℕ → List ℚ) :
    g.evalStored r xs = scan (fun env e => storeAs (r env.length) (match e.1 with
      | .input => xs env.length
      | l => l.eval (e.2.map (env.getD · [])))) g := rfl

theorem PGraph.evalStored_length (g : PGraph) (r : ℕ → Option KifRS) (xs : ℕ → List ℚ) :
    (g.evalStored r xs).length = g.length := by rw [g.evalStored_scan, scan_length]

theorem PGraph.lay_lt {g : PGraph} {n : ℕ} {l : PLay} (h : g.lay n = some l) : n < g.length := by
  by_contra hc
  unfold PGraph.lay at h
  rw [List.getElem?_eq_none (by omega)] at h
  cases h

theorem PGraph.stored_input {g : PGraph} {n : ℕ} (h : g.lay n = some .input) (r : ℕ → Option KifRS) (xs : ℕ → List ℚ) :
    g.stored r xs n = storeAs (r n) (xs n) := by
  have hn := PGraph.lay_lt h
  unfold PGraph.stored
  rw [g.evalStored_scan, List.getD, scan_get, g.of_lay h]
  simp only [Option.map_some, Option.getD_some]
  rw [List.length_take, scan_length, min_eq_left hn.le]

theorem PGraph.stored_eq {g : PGraph} (hwf : g.WF) {n : ℕ} {l : PLay} (h : g.lay n = some l) (hl : l ≠ .input)
    (r : ℕ → Option KifRS) (xs : ℕ → List ℚ) :
    g.stored r xs n = storeAs (r n) (l.eval ((g.ins n).map (g.stored r xs))) := by
  have hn := PGraph.lay_lt h
  unfold PGraph.stored
  rw [g.evalStored_scan, List.getD, scan_get, g.of_lay h]
  simp only [Option.map_some, Option.getD_some]
  rw [List.length_take, scan_length, min_eq_left hn.le]
  have : ((g.ins n).map fun m => (List.take n (scan (fun env e => storeAs (r env.length) (match e.1 with
      | .input => xs env.length
      | l => l.eval (e.2.map (env.getD · [])))) g)).getD m []) = (g.ins n).map fun m => ((scan (fun env e => storeAs (r env.length) (match e.1 with
      | .input => xs env.length
      | l => l.eval (e.2.map (env.getD · [])))) g)).getD m [] := by
    apply List.map_congr_left
    intro m hm
    exact getD_take _ _ (hwf n m hm)
  rw [this]

/-- how the stored output `S` of a layer relates to its output `V` in the proxy model -/
structure StoredOk (g G : PGraph) (n : ℕ) (S V : List ℚ) : Prop where
  length : S.length = V.length
  holds : (∃ p, n ∈ g.ins p ∧ g.ThroughAt p) → (g.typeOf n).HoldsAll S
  other : SeesOther g n → S = V
  quant : ∀ m Q o s, Sees g n m → G.lay m = some (.quant Q o s) → ∀ e < Q.elems.length, ∀ p,
    Q.call e (at0 S p) = Q.call e (at0 V p)

theorem at0_map {c : ℚ → ℚ} {x : List ℚ} {p : ℕ} (h : p < x.length) : at0 (x.map c) p = c (at0 x p) := by
  unfold at0
  rw [getD_lt _ _ (by simpa using h), getD_lt _ _ h, List.getElem_map]

theorem at0_ge {x : List ℚ} {p : ℕ} (h : x.length ≤ p) : at0 x p = 0 := by
  unfold at0
  rw [List.getD, List.getElem?_eq_none h]; rfl

section
variable {g : PGraph} (hwf : g.WF) (hfit : g.Fits)
include hwf hfit

theorem store_ok {r : ℕ → Option KifRS} (hreg : Registered g r) (hdp : g.DataPath r) {G : PGraph} (hG : Between g G) {n : ℕ}
    {l : PLay} (hl : g.lay n = some l) {Y V : List ℚ} (hY : (g.typeOf n).HoldsAll Y) (hlen : Y.length = V.length)
    (h1 : SeesOther g n → Y = V)
    (h2 : ∀ m Q o s, Sees g n m → G.lay m = some (.quant Q o s) → ∀ e < Q.elems.length, ∀ p,
      Q.call e (at0 Y p) = Q.call e (at0 V p)) : StoredOk g G n (storeAs (r n) Y) V := by
  obtain ⟨a, b⟩ := hreg n l hl
  by_cases hlut : ∃ L, l = .lut L
  · rw [a hlut]
    exact ⟨hlen, fun _ => hY, h1, h2⟩
  · obtain ⟨off, ns, t, ht, hr⟩ := b hlut
    have hb := Between.registerAll hwf hfit off ns ⟨g, []⟩ (Between.refl g)
    have key := fun {x : ℚ} (hx : (g.typeOf n).Holds x) => stored_value hwf hfit hdp hb ht hr hx
    rw [hr]
    refine ⟨by simpa [storeAs] using hlen, ?_, ?_, ?_⟩
    · intro hp v hv
      obtain ⟨y, hy, rfl⟩ := List.mem_map.mp hv
      exact (key (hY y hy)).2.1 hp
    · intro hso
      rw [← h1 hso]
      show Y.map _ = Y
      conv_rhs => rw [← List.map_id Y]
      exact List.map_congr_left fun y hy => (key (hY y hy)).1 hso
    · intro m Q o s hs hQ e he p
      rw [← h2 m Q o s hs hQ e he p]
      show Q.call e (at0 (Y.map _) p) = _
      rcases Nat.lt_or_ge p Y.length with hp | hp
      · rw [at0_map hp]
        have : at0 Y p ∈ Y := by unfold at0; rw [getD_lt _ _ hp]; exact List.getElem_mem hp
        exact (key (hY _ this)).2.2 G hG m Q o s hs hQ e he
      · rw [at0_ge (by simpa using hp), at0_ge hp]

theorem stored_ok {r : ℕ → Option KifRS} (hreg : Registered g r) (hdp : g.DataPath r) {G : PGraph} (hG : Between g G)
    (xs : ℕ → List ℚ) (hxs : ∀ n, infKif.HoldsAll (xs n)) (n : ℕ) (hn : n < g.length) :
    StoredOk g G n (G.stored r xs n) (g.value xs n) := by
  have hwf' : G.WF := fun n m hm => hwf n m (by rwa [hG.ins n] at hm)
  induction n using Nat.strong_induction_on with
  | _ n ih =>
    have hil : ∀ i ∈ g.ins n, StoredOk g G i (G.stored r xs i) (g.value xs i) := fun i hi =>
      ih i (hwf n i hi) (by have := hwf n i hi; omega)
    obtain ⟨l, hl⟩ : ∃ l, g.lay n = some l := ⟨_, by unfold PGraph.lay; rw [List.getElem?_eq_getElem hn]; rfl⟩
    obtain ⟨l', hl', hll⟩ := hG.lay hl
    by_cases hi : l = .input
    · subst hi
      have : l' = .input := by rcases hll with rfl | rfl <;> rfl
      subst this
      rw [PGraph.stored_input hl', PGraph.value_input hl]
      exact store_ok hwf hfit hreg hdp hG hl (by rw [PGraph.typeOf_eq hwf hl]; exact hxs n) rfl (fun _ => rfl)
        (fun _ _ _ _ _ _ _ _ _ => rfl)
    · have hi' : l' ≠ .input := by
        rcases hll with rfl | rfl
        · exact hi
        · intro h; apply hi
          cases l <;> simp [PLay.after] at h ⊢
      rw [PGraph.stored_eq hwf' hl' hi', hG.ins]
      have hV : g.value xs n = l'.eval ((g.ins n).map (g.value xs)) := by
        rw [← Between.value hwf hfit hG xs hxs n, PGraph.value_eq hwf' hl' hi', hG.ins]
        congr 1
        exact List.map_congr_left fun m _ => Between.value hwf hfit hG xs hxs m
      have hhold := PGraph.values_hold hwf hfit xs hxs n
      have same : l'.eval ((g.ins n).map (G.stored r xs)) = g.value xs n →
          StoredOk g G n (storeAs (r n) (l'.eval ((g.ins n).map (G.stored r xs)))) (g.value xs n) := by
        intro h
        rw [h]
        exact store_ok hwf hfit hreg hdp hG hl hhold rfl (fun _ => rfl) (fun _ _ _ _ _ _ _ _ _ => rfl)
      by_cases hq : g.QuantAt n
      · -- a quantizer
        apply same
        rw [hV]
        obtain ⟨q, o, s, hq⟩ := hq
        obtain ⟨i, hins⟩ := hdp.single n (.inl ⟨q, o, s, hq⟩)
        obtain ⟨Q, hQ, st⟩ := hG.quant hq
        rw [hl'] at hQ
        cases hQ
        have hmem : i ∈ g.ins n := by rw [hins]; simp
        obtain ⟨hc, hlen, -⟩ := hfit n _ hq
        rw [hins]
        simp only [List.map_cons, List.map_nil, PLay.eval, List.headD_cons]
        apply List.map_congr_left
        intro p hp
        exact (hil i hmem).quant n Q o s (.direct hmem ⟨q, o, s, hq⟩) hl' _
          (by rw [st.length, hlen]; exact elemOf_lt hc (List.mem_range.mp hp)) p
      · by_cases ht : g.ThroughAt n
        · -- a layer that moves values
          have hlt : l'.through = true := by
            obtain ⟨l0, h0, h1⟩ := ht
            rw [hl] at h0
            cases h0
            rcases hll with rfl | rfl
            · exact h1
            · rw [l.after_through]; exact h1
          have hle : l' = l := by
            rcases hll with h | h
            · exact h
            · rw [h]; rw [h] at hlt
              cases l <;> first | rfl | cases hlt
          subst hle
          have hTh : ∀ i ∈ g.ins n, (g.typeOf n).HoldsAll (G.stored r xs i) := fun i hi v hv =>
            through_holds hwf hfit hdp.single hi ht ((hil i hi).holds ⟨n, hi, ht⟩ v hv)
          have hkn := PGraph.types_k01 hwf hfit n
          -- every output is an entry of an input, or 0
          obtain ⟨N, f, hf⟩ : ∃ (N : ℕ) (f : ℕ → ℕ × ℕ), (∀ ins : List (List ℚ), l'.eval ins =
              (List.range N).map fun p => at0 (ins.getD (f p).1 []) (f p).2) := by
            cases l' with
            | move b k src =>
              refine ⟨k, fun p => (0, src p), fun ins => ?_⟩
              simp only [PLay.eval]
              apply List.map_congr_left
              intro p _
              cases ins <;> rfl
            | concat k src => exact ⟨k, src, fun ins => rfl⟩
            | _ => cases hlt
          have hget : ∀ (F : ℕ → List ℚ) (j p : ℕ), (∃ i ∈ g.ins n, at0 (((g.ins n).map F).getD j []) p = at0 (F i) p ∧
              (g.ins n)[j]? = some i) ∨ ((g.ins n)[j]? = none ∧ at0 (((g.ins n).map F).getD j []) p = 0) := by
            intro F j p
            rw [List.getD, List.getElem?_map]
            cases hj : (g.ins n)[j]? with
            | none => right; exact ⟨rfl, rfl⟩
            | some i => left; exact ⟨i, List.mem_of_getElem? hj, rfl, rfl⟩
          have hpair : ∀ j, (∃ i ∈ g.ins n, ∀ p, at0 (((g.ins n).map (G.stored r xs)).getD j []) p = at0 (G.stored r xs i) p ∧
              at0 (((g.ins n).map (g.value xs)).getD j []) p = at0 (g.value xs i) p) ∨
              ∀ p, at0 (((g.ins n).map (G.stored r xs)).getD j []) p = 0 ∧
                at0 (((g.ins n).map (g.value xs)).getD j []) p = 0 := by
            intro j
            rw [List.getD, List.getElem?_map, List.getD, List.getElem?_map]
            cases hj : (g.ins n)[j]? with
            | none => right; exact fun p => ⟨rfl, rfl⟩
            | some i => left; exact ⟨i, List.mem_of_getElem? hj, fun p => ⟨rfl, rfl⟩⟩
          refine store_ok hwf hfit hreg hdp hG hl ?_ ?_ ?_ ?_
          · intro v hv
            rw [hf] at hv
            obtain ⟨p, -, rfl⟩ := List.mem_map.mp hv
            rcases hpair (f p).1 with ⟨i, hi, h⟩ | h
            · rw [(h _).1]; exact (hTh i hi).at0 (by omega) _
            · rw [(h _).1]; exact KIF.holds_zero (by omega)
          · rw [hV, hf, hf]; simp
          · intro hso
            rw [hV]
            congr 1
            apply List.map_congr_left
            intro i hi
            exact (hil i hi).other (.through hi ht hso)
          · intro m Q o s hs hQ e he p
            rw [hV, hf, hf]
            rcases Nat.lt_or_ge p N with hp | hp
            · have e1 : ∀ F : ℕ → ℚ, at0 ((List.range N).map F) p = F p := by
                intro F; unfold at0; rw [getD_lt _ _ (by simpa using hp)]; simp
              rw [e1, e1]
              rcases hpair (f p).1 with ⟨i, hi, h⟩ | h
              · rw [(h _).1, (h _).2]
                exact (hil i hi).quant m Q o s (.through hi ht hs) hQ e he _
              · rw [(h _).1, (h _).2]
            · rw [at0_ge (by simpa using hp), at0_ge (by simpa using hp)]
        · -- a layer that computes
          apply same
          rw [hV]
          congr 1
          apply List.map_congr_left
          intro i hi
          exact (hil i hi).other (.other hi hq ht)

/-- **C91** (partial). If every layer fits the types derived for its inputs and the consumers of every output use it in a way
the registered types account for (`DataPath`), then storing the output of every layer in the type registered for it, with
the quantizers in whatever state registration leaves them, changes no output of the model, for all inputs. Missing for
the full property: models outside `DataPath`, for which the code registers types that do change outputs
(`C91_wrapping_output_changes`). -/
theorem C91_data_path_exact_partial {r : ℕ → Option KifRS} (hreg : Registered g r) (hdp : g.DataPath r) (off : Option ℤ)
    (ns : List ℕ) (xs : ℕ → List ℚ) (hxs : ∀ n, infKif.HoldsAll (xs n)) (n : ℕ) (hn : n < g.length)
    (hout : ∀ m, n ∉ g.ins m) :
    ((registerAll off ns ⟨g, []⟩).2.graph.evalStored r xs)[n]? = (g.eval xs)[n]? := by
  have hb := Between.registerAll hwf hfit off ns ⟨g, []⟩ (Between.refl g)
  have := (stored_ok hwf hfit hreg hdp hb xs hxs n hn).other (.output hout)
  unfold PGraph.stored PGraph.value at this
  have l1 : n < ((HGQ.registerAll off ns ⟨g, []⟩).2.graph.evalStored r xs).length := by
    rw [PGraph.evalStored_length, hb.1]; exact hn
  have l2 : n < (g.eval xs).length := by rw [g.eval_length]; exact hn
  rw [getD_lt _ _ l1, getD_lt _ _ l2] at this
  rw [List.getElem?_eq_getElem l1, List.getElem?_eq_getElem l2, this]

/-- **C91** (partial). Under the same conditions every layer whose output is consumed by a layer that computes with it, directly
or through `Reshape`, `Flatten` or `Concatenate`, is stored exactly. -/
theorem C91_computed_inputs_exact_partial {r : ℕ → Option KifRS} (hreg : Registered g r) (hdp : g.DataPath r) (off : Option ℤ)
    (ns : List ℕ) (xs : ℕ → List ℚ) (hxs : ∀ n, infKif.HoldsAll (xs n)) (n : ℕ) (hn : n < g.length) (hs : SeesOther g n) :
    ((registerAll off ns ⟨g, []⟩).2.graph.evalStored r xs)[n]? = (g.eval xs)[n]? := by
  have hb := Between.registerAll hwf hfit off ns ⟨g, []⟩ (Between.refl g)
  have := (stored_ok hwf hfit hreg hdp hb xs hxs n hn).other hs
  unfold PGraph.stored PGraph.value at this
  have l1 : n < ((HGQ.registerAll off ns ⟨g, []⟩).2.graph.evalStored r xs).length := by
    rw [PGraph.evalStored_length, hb.1]; exact hn
  have l2 : n < (g.eval xs).length := by rw [g.eval_length]; exact hn
  rw [getD_lt _ _ l1, getD_lt _ _ l2] at this
  rw [List.getElem?_eq_getElem l1, List.getElem?_eq_getElem l2, this]

end

/-! ### Concrete models -/

/-- The result types registered when the layers are registered in order, as in proxy/convert.py lines 374-376. -/
def regTypes (off : Option ℤ) (g : PGraph) (n : ℕ) : Option KifRS :=
  match g.lay n with
  | none => none
  | some (.lut _) => none
  | some _ => ((registerAll off (List.range n) ⟨g, []⟩).2.graph.result n).1

theorem regTypes_registered (off : Option ℤ) (g : PGraph) (h : ∀ n < g.length, (regTypes off g n).isSome = true) :
    Registered g (regTypes off g) := by
  intro n l hl
  obtain ⟨t, ht⟩ := Option.isSome_iff_exists.mp (h n (PGraph.lay_lt hl))
  constructor
  · rintro ⟨L, rfl⟩
    unfold regTypes; rw [hl]
  · intro hlut
    refine ⟨off, List.range n, t, ?_, ht⟩
    rw [← ht]
    unfold regTypes
    rw [hl]
    cases l <;> first | rfl | exact absurd ⟨_, rfl⟩ hlut

/-- two signed inputs, quantized, concatenated and quantized to a narrower heterogeneous type -/
def catGraph : PGraph :=
  [(.input, []),
   (.quant ⟨[⟨1, 7, 5⟩], .TRN, .WRAP⟩ [1] [1], [0]),
   (.input, []),
   (.quant ⟨[⟨1, 8, 5⟩], .RND, .WRAP⟩ [1] [1], [2]),
   (.concat 2 fun p => (p, 0), [1, 3]),
   (.quant ⟨[⟨1, 5, 3⟩, ⟨1, 4, 3⟩], .RND, .WRAP⟩ [2] [2], [4])]

/-- as `catGraph`, with an unsigned quantizer on the first input -/
def mixGraph : PGraph :=
  [(.input, []),
   (.quant ⟨[⟨0, 4, 4⟩], .TRN, .WRAP⟩ [1] [1], [0]),
   (.input, []),
   (.quant ⟨[⟨1, 5, 5⟩], .TRN, .WRAP⟩ [1] [1], [2]),
   (.concat 2 fun p => (p, 0), [1, 3]),
   (.quant ⟨[⟨1, 3, 3⟩], .TRN, .WRAP⟩ [2] [1], [4])]

theorem cat_types : catGraph.types = [infKif, ⟨1, 4, 2⟩, infKif, ⟨1, 4, 3⟩, ⟨1, 4, 3⟩, ⟨1, 2, 2⟩] := by decide +kernel

theorem mix_types : mixGraph.types = [infKif, ⟨0, 4, 0⟩, infKif, ⟨1, 4, 0⟩, ⟨1, 4, 0⟩, ⟨1, 2, 0⟩] := by decide +kernel

theorem cat_reg : (List.range 6).map (regTypes none catGraph) =
    [some ⟨⟨1, 4, 2⟩, .TRN, .WRAP⟩, some ⟨⟨1, 2, 2⟩, .TRN, .WRAP⟩, some ⟨⟨1, 4, 3⟩, .RND, .WRAP⟩,
     some ⟨⟨1, 2, 3⟩, .TRN, .WRAP⟩, some ⟨⟨1, 2, 3⟩, .TRN, .WRAP⟩, some ⟨⟨1, 2, 2⟩, .TRN, .WRAP⟩] := by decide +kernel

theorem cat_wf : catGraph.WF := by
  intro n m hm
  rcases n with _ | _ | _ | _ | _ | _ | n
  all_goals (simp [catGraph, PGraph.ins] at hm; try omega)

theorem mix_wf : mixGraph.WF := by
  intro n m hm
  rcases n with _ | _ | _ | _ | _ | _ | n
  all_goals (simp [mixGraph, PGraph.ins] at hm; try omega)

theorem cat_fits : catGraph.Fits := by
  intro n l hl
  have ht : catGraph.inTypes n = (catGraph.ins n).map
    (([infKif, ⟨1, 4, 2⟩, infKif, ⟨1, 4, 3⟩, ⟨1, 4, 3⟩, ⟨1, 2, 2⟩] : List KIF).getD · infKif) := by
    rw [← cat_types]; rfl
  rw [ht]
  rcases n with _ | _ | _ | _ | _ | _ | n
  all_goals simp [catGraph, PGraph.lay] at hl
  all_goals subst hl
  · trivial
  · exact ⟨by decide, rfl, by decide, .inl (by decide +kernel)⟩
  · trivial
  · exact ⟨by decide, rfl, by decide, .inl (by decide +kernel)⟩
  · trivial
  · exact ⟨by decide, rfl, by decide, .inl (by decide +kernel)⟩

theorem mix_fits : mixGraph.Fits := by
  intro n l hl
  have ht : mixGraph.inTypes n = (mixGraph.ins n).map
    (([infKif, ⟨0, 4, 0⟩, infKif, ⟨1, 4, 0⟩, ⟨1, 4, 0⟩, ⟨1, 2, 0⟩] : List KIF).getD · infKif) := by
    rw [← mix_types]; rfl
  rw [ht]
  rcases n with _ | _ | _ | _ | _ | _ | n
  all_goals simp [mixGraph, PGraph.lay] at hl
  all_goals subst hl
  · trivial
  · exact ⟨by decide, rfl, by decide, .inl (by decide +kernel)⟩
  · trivial
  · exact ⟨by decide, rfl, by decide, .inl (by decide +kernel)⟩
  · trivial
  · exact ⟨by decide, rfl, by decide, .inl (by decide +kernel)⟩

theorem cat_quant {m : ℕ} {q : FPQ} {o s : List ℕ} (h : catGraph.lay m = some (.quant q o s)) :
    (q.rnd = .TRN ∨ q.rnd = .RND) ∧ q.sat = .WRAP ∧ (∀ e ∈ q.elems, e.keepNegative = 1) ∧ q.kif.i < 65535 ∧ q.kif.f ≤ 65535 ∧
      ∃ i, catGraph.ins m = [i] := by
  rcases m with _ | _ | _ | _ | _ | _ | m
  all_goals simp [catGraph, PGraph.lay] at h
  all_goals obtain ⟨rfl, rfl, rfl⟩ := h
  all_goals exact ⟨by decide, by decide, by decide, by decide +kernel, by decide +kernel, _, rfl⟩

theorem cat_typeOf (n : ℕ) : (catGraph.typeOf n).k = 1 ∧ 2 ≤ (catGraph.typeOf n).i ∧ (catGraph.typeOf n).i ≤ 65535 ∧
    2 ≤ (catGraph.typeOf n).f ∧ (catGraph.typeOf n).f ≤ 65535 := by
  unfold PGraph.typeOf
  rw [cat_types]
  rcases n with _ | _ | _ | _ | _ | _ | n
  on_goal 7 => show infKif.k = 1 ∧ 2 ≤ infKif.i ∧ infKif.i ≤ 65535 ∧ 2 ≤ infKif.f ∧ infKif.f ≤ 65535
  all_goals decide

theorem cat_regTypes {n : ℕ} {t : KifRS} (h : regTypes none catGraph n = some t) :
    1 ≤ t.kif.k + t.kif.i + t.kif.f ∧ 0 ≤ t.kif.f := by
  have hr := cat_reg
  rcases n with _ | _ | _ | _ | _ | _ | n
  all_goals first
    | (simp [regTypes, catGraph, PGraph.lay] at h; done)
    | skip
  all_goals
    simp only [List.range, List.range.loop, List.map_cons, List.map_nil, List.cons.injEq] at hr
    obtain ⟨r0, r1, r2, r3, r4, r5, -⟩ := hr
  · rw [r0] at h; cases h; decide
  · rw [r1] at h; cases h; decide
  · rw [r2] at h; cases h; decide
  · rw [r3] at h; cases h; decide
  · rw [r4] at h; cases h; decide
  · rw [r5] at h; cases h; decide

theorem cat_dataPath : catGraph.DataPath (regTypes none catGraph) where
  single := by
    rintro n (⟨q, o, s, h⟩ | ⟨b, k, src, h⟩)
    · exact (cat_quant h).2.2.2.2.2
    · rcases n with _ | _ | _ | _ | _ | _ | n
      all_goals simp [catGraph, PGraph.lay] at h
  size := fun n _ => by have := cat_typeOf n; omega
  bits := fun n t h _ => (cat_regTypes h).1
  reach := fun n t h _ _ => by have := cat_typeOf n; have := (cat_regTypes h).2; omega
  modes := fun n m q o s _ h _ => by
    obtain ⟨h1, h2, h3, -⟩ := cat_quant h
    refine ⟨h1, by rw [h2]; decide, fun _ e he => ?_⟩
    rw [h3 e he, (cat_typeOf n).1]
  inputs := fun n m q o s _ _ h => by
    obtain ⟨-, h2, -, h4, h5, -⟩ := cat_quant h
    exact ⟨h4, h5, .inr h2⟩

theorem cat_registered : Registered catGraph (regTypes none catGraph) :=
  regTypes_registered none _ (by decide +kernel)

-- the hypotheses are met by a model that registers without error; intermediate values wrap in the stored data path, the
-- output does not change
example : (registerAll none (List.range 6) ⟨catGraph, []⟩).2.graph.evalStored (regTypes none catGraph) (fun _ => [27 / 4]) =
    [[27 / 4], [-5 / 4], [27 / 4], [-5 / 4], [-5 / 4, -5 / 4], [-5 / 4, -1]] ∧
    catGraph.eval (fun _ => [27 / 4]) = [[27 / 4], [27 / 4], [27 / 4], [27 / 4], [27 / 4, 27 / 4], [-5 / 4, -1]] := by
  decide +kernel

example (xs : ℕ → List ℚ) (hxs : ∀ n, infKif.HoldsAll (xs n)) :
    ((registerAll none (List.range 6) ⟨catGraph, []⟩).2.graph.evalStored (regTypes none catGraph) xs)[5]? =
      (catGraph.eval xs)[5]? :=
  C91_data_path_exact_partial cat_wf cat_fits cat_registered cat_dataPath none _ xs hxs 5 (by decide) (by
    intro m hm
    have := cat_wf m 5 hm
    have := PGraph.ins_lt hm
    have : catGraph.length = 6 := rfl
    omega)

/-- C91 fails in general: an unsigned layer and a signed layer, concatenated and quantized to a narrower wrapping type.
Registration succeeds and every layer fits its derived types, but the unsigned layer is registered with the integer bits
of the signed quantizer and without its sign bit, so the stored value wraps in half the range. On input 5 the model gives
`-3`, the data path `1`. -/
theorem C91_wrapping_output_changes : ∃ (g : PGraph) (xs : ℕ → List ℚ), g.WF ∧ g.Fits ∧ Registered g (regTypes none g) ∧
    (registerAll none (List.range g.length) ⟨g, []⟩).1 = .ok () ∧ (∀ n, infKif.HoldsAll (xs n)) ∧
    (g.eval xs)[5]? = some [(-3 : ℚ), -3] ∧
    ((registerAll none (List.range g.length) ⟨g, []⟩).2.graph.evalStored (regTypes none g) xs)[5]? = some [(1 : ℚ), -3] := by
  refine ⟨mixGraph, fun _ => [5], mix_wf, mix_fits, regTypes_registered none _ (by decide +kernel), by decide +kernel, ?_,
    by decide +kernel, by decide +kernel⟩
  intro _ v hv
  have h : infKif.holdsB 5 = true := by decide +kernel
  simp at hv
  rw [hv]
  exact KIF.holds_of_holdsB h

end HGQ
