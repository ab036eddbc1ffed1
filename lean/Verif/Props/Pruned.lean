import Verif.Props.PrecGraph
import Verif.Lemmas.FitsRange

/-!
C101: outputs that were zero throughout the calibration (pruned elements of a quantizer) are zero in the deployed model, for every
input, whatever the registration of precisions does to the quantizer.
-/

namespace HGQ

open Spec

/-- the sign entries stored in the layer are not negative; `FixedPointQuantizer` stores 0 or 1 -/
def PLay.SignOk : PLay → Prop
  | .quant q _ _ => ∀ e ∈ q.elems, 0 ≤ e.keepNegative
  | .lut L => 0 ≤ L.kifOut.k
  | _ => True

theorem listMax_nonneg {l : List ℤ} (h : ∀ a ∈ l, 0 ≤ a) : 0 ≤ listMax l := by
  rcases eq_or_ne l [] with rfl | hne
  · exact le_rfl
  · exact h _ (listMax_mem hne)

theorem kifMax_nonneg {ts : List KIF} (h : ∀ t ∈ ts, 0 ≤ t.k) : 0 ≤ (kifMax ts).k := by
  apply listMax_nonneg
  intro a ha
  obtain ⟨t, ht, rfl⟩ := List.mem_map.mp ha
  exact h t ht

theorem arrContainer_sign (arr : List ℚ) : 0 ≤ (arrContainer arr).k := by
  unfold arrContainer
  split_ifs
  · exact le_rfl
  · exact zero_le_one
  · exact le_rfl

theorem PLay.kif_sign {l : PLay} (hl : l.SignOk) {ts : List KIF} (ht : ∀ t ∈ ts, 0 ≤ t.k) : 0 ≤ (l.kif ts).k := by
  have hh : 0 ≤ (ts.headD infKif).k := by
    cases ts with
    | nil => decide
    | cons t _ => exact ht t (by simp)
  have hg : ∀ n, 0 ≤ (ts.getD n infKif).k := by
    intro n
    by_cases hn : n < ts.length
    · rw [getD_lt _ _ hn]; exact ht _ (List.getElem_mem hn)
    · rw [List.getD, List.getElem?_eq_none (by omega)]; decide
  cases l with
  | quant q o s =>
    simp only [PLay.kif, FPQ.produced_fst]
    refine le_min hh (listMax_nonneg ?_)
    intro a ha
    obtain ⟨e, he, rfl⟩ := List.mem_map.mp ha
    exact hl e he
  | input => simp [PLay.kif, infKif]
  | move => exact hh
  | maxPool => exact hh
  | concat => exact kifMax_nonneg ht
  | avgPool => exact hh
  | add => exact kifMax_nonneg ht
  | sub => exact kifMax_nonneg ht
  | dot => exact le_max_of_le_left (hg 0)
  | linear => simp only [PLay.kif, linearKif]; split_ifs <;> simp
  | act b fn phi =>
    simp only [PLay.kif]
    unfold activationKifForward
    exact arrContainer_sign _
  | softmax => simp [PLay.kif, softmaxKif]
  | lut L => exact hl
  | other => simp [PLay.kif, infKif]

theorem PLay.after_sign {l : PLay} (hl : l.SignOk) {ts : List KIF} (ht : ∀ t ∈ ts, 0 ≤ t.k) : (l.after ts).SignOk := by
  have hk := PLay.kif_sign hl ht
  cases l with
  | quant q o s =>
    simp only [PLay.kif, FPQ.produced_fst] at hk
    intro e he
    rw [q.produced_snd] at he
    split_ifs at he
    · obtain ⟨e0, he0, rfl⟩ := List.mem_map.mp he
      exact le_min (hl e0 he0) hk
    · exact hl e he
  | _ => exact hl

/-- A statement `P` about the layers of a graph of `N` layers, next to `SignOk`. -/
def PGraph.Inv (P : ℕ → PLay → Prop) (N : ℕ) (g : PGraph) : Prop :=
  g.length = N ∧ ∀ n l, g.lay n = some l → l.SignOk ∧ P n l

section
variable {P : ℕ → PLay → Prop} {N : ℕ}
  (hP : ∀ (n : ℕ) (l : PLay) (ts : List KIF), (∀ t ∈ ts, 0 ≤ t.k) → l.SignOk → P n l → P n (l.after ts))
include hP

omit hP in
theorem PGraph.Inv.foldl {fuel : ℕ}
    (ih : ∀ (g : PGraph) (m : ℕ), g.Inv P N → 0 ≤ (PGraph.produced fuel g m).1.k ∧ (PGraph.produced fuel g m).2.Inv P N) :
    ∀ (ms : List ℕ) (acc : List KIF × PGraph), (∀ t ∈ acc.1, 0 ≤ t.k) → acc.2.Inv P N →
      let r := ms.foldl (fun (acc : List KIF × PGraph) m =>
        let a := PGraph.produced fuel acc.2 m
        (acc.1 ++ [a.1], a.2)) acc
      (∀ t ∈ r.1, 0 ≤ t.k) ∧ r.2.Inv P N
  | [], acc, h1, h2 => ⟨h1, h2⟩
  | m :: ms, acc, h1, h2 => by
    obtain ⟨a, b⟩ := ih acc.2 m h2
    refine PGraph.Inv.foldl ih ms (acc.1 ++ [_], _) ?_ b
    intro t ht
    rcases List.mem_append.mp ht with ht | ht
    · exact h1 t ht
    · rw [List.mem_singleton.mp ht]; exact a

theorem PGraph.Inv.produced : ∀ (fuel : ℕ) (g : PGraph) (n : ℕ), g.Inv P N →
    0 ≤ (PGraph.produced fuel g n).1.k ∧ (PGraph.produced fuel g n).2.Inv P N
  | 0, g, _, h => ⟨by simp [PGraph.produced, infKif], h⟩
  | fuel + 1, g, n, h => by
    unfold PGraph.produced
    cases hg : g[n]? with
    | none => exact ⟨by simp [infKif], h⟩
    | some e =>
      obtain ⟨l, ins⟩ := e
      obtain ⟨hs, hp⟩ := h.2 n l (PGraph.lay_of hg)
      simp only
      split_ifs with hq
      · obtain ⟨h1, h2⟩ := PGraph.Inv.foldl (PGraph.Inv.produced fuel) ins ([], g) (by simp) h
        generalize ins.foldl _ ([], g) = r at *
        refine ⟨PLay.kif_sign hs h1, by simpa using h2.1, fun m l' hl' => ?_⟩
        unfold PGraph.lay at hl'
        by_cases hm : n = m
        · subst hm
          rw [List.getElem?_set_self (by rw [h2.1, ← h.1]; exact (List.getElem?_eq_some_iff.mp hg).1)] at hl'
          cases hl'
          exact ⟨PLay.after_sign hs h1, hP n l _ h1 hs hp⟩
        · rw [List.getElem?_set_ne hm] at hl'
          exact h2.2 m l' hl'
      · exact ⟨PLay.kif_sign hs (by simp), h⟩

theorem PGraph.Inv.inputKifs (g : PGraph) (n : ℕ) (h : g.Inv P N) : (g.inputKifs n).2.Inv P N :=
  (PGraph.Inv.foldl (PGraph.Inv.produced hP g.length) _ ([], g) (by simp) h).2

theorem PGraph.Inv.result (g : PGraph) (n : ℕ) (h : g.Inv P N) : (g.result n).2.Inv P N := by
  unfold PGraph.result
  split
  · exact h
  · split_ifs
    · exact h
    · exact (PGraph.Inv.produced hP _ _ _ h).2

theorem PGraph.Inv.config (off : Option ℤ) (g : PGraph) (n : ℕ) (h : g.Inv P N) : (g.config off n).2.Inv P N := by
  have hr := PGraph.Inv.result hP g n h
  unfold PGraph.config
  simp only
  split
  · exact hr
  · split
    · exact (PGraph.Inv.produced hP _ _ _ hr).2
    · exact PGraph.Inv.inputKifs hP _ _ hr
    · exact PGraph.Inv.inputKifs hP _ _ hr
    · exact hr

theorem PGraph.Inv.register (off : Option ℤ) (s : Registry) (n : ℕ) (h : s.graph.Inv P N) : (register off s n).2.graph.Inv P N := by
  have hc := PGraph.Inv.config hP off s.graph n h
  unfold HGQ.register
  split
  · exact h
  · split
    · exact h
    · simp only
      split
      · exact hc
      · exact hc

theorem PGraph.Inv.registerAll (off : Option ℤ) : ∀ (ns : List ℕ) (s : Registry), s.graph.Inv P N →
    (registerAll off ns s).2.graph.Inv P N
  | [], _, h => h
  | n :: ns, s, h => by
    have h1 := PGraph.Inv.register hP off s n h
    unfold HGQ.registerAll
    simp only
    split
    · exact h1
    · exact PGraph.Inv.registerAll off ns _ h1

end

/-- the layer is a quantizer on samples of shape `o`, and its element `e` is unsigned with no or a negative number of bits -/
def PLay.DeadAt (o s : List ℕ) (e : ℕ) (l : PLay) : Prop :=
  ∃ (q : FPQ) (E : KBI), l = .quant q o s ∧ q.elems[e]? = some E ∧ E.keepNegative = 0 ∧ E.bits ≤ 0

theorem PLay.DeadAt.after {o s : List ℕ} {e : ℕ} {l : PLay} {ts : List KIF} (ht : ∀ t ∈ ts, 0 ≤ t.k) (hl : l.SignOk)
    (h : l.DeadAt o s e) : (l.after ts).DeadAt o s e := by
  obtain ⟨q, E, rfl, hE, hk, hb⟩ := h
  have hs := PLay.after_sign hl ht
  simp only [PLay.after] at hs ⊢
  rw [q.produced_snd] at hs ⊢
  split_ifs at hs ⊢ with hc
  · refine ⟨_, _, rfl, by rw [List.getElem?_map, hE]; exact Option.map_some _ _, ?_, ?_⟩
    · have h0 := hs _ (List.mem_map.mpr ⟨E, List.mem_of_getElem? hE, rfl⟩)
      simp only at h0 ⊢
      omega
    · exact min_le_of_left_le hb
  · exact ⟨q, E, rfl, hE, hk, hb⟩

theorem PLay.DeadAt.eval {o s : List ℕ} {e : ℕ} {l : PLay} (h : l.DeadAt o s e) (ins : List (List ℚ)) {p : ℕ} (hp : p < prodL o)
    (he : elemOf o s p = e) : at0 (l.eval ins) p = 0 := by
  obtain ⟨q, E, rfl, hE, hk, hb⟩ := h
  simp only [PLay.eval, at0]
  rw [getD_lt _ _ (by simpa using hp)]
  simp only [List.getElem_map, List.getElem_range, he]
  unfold FPQ.call
  rw [List.getD, hE]
  exact KBI.apply_nonpos_bits hk hb _ _ _

/-- **C101**. Take any proxy model (a graph of layers in any order of dependence), any sequence of registrations of its layers, whether or
not one of them fails, and any input. Where the quantizer at position `n` was created without bits (everything recorded there was zero),
the model's value at that layer is zero after the registrations: in all rounding and overflow modes, in front of and behind any layers,
even though the registration can change the quantizer to a negative number of bits. -/
theorem C101_pruned_stays_zero (g : PGraph) (hs : ∀ n l, g.lay n = some l → l.SignOk) (off : Option ℤ) (ns : List ℕ)
    (written : List (ℕ × ℕ × Conf)) (n : ℕ) (q : FPQ) (o s : List ℕ) (hq : g.lay n = some (.quant q o s)) (p : ℕ) (hp : p < prodL o)
    (E : KBI) (hE : q.elems[elemOf o s p]? = some E) (hk : E.keepNegative = 0) (hb : E.bits ≤ 0) (xs : ℕ → List ℚ) :
    at0 ((registerAll off ns ⟨g, written⟩).2.graph.value xs n) p = 0 := by
  have hinv : g.Inv (fun m l => m = n → l.DeadAt o s (elemOf o s p)) g.length := by
    refine ⟨rfl, fun m l hl => ⟨hs m l hl, ?_⟩⟩
    rintro rfl
    rw [hq] at hl
    cases hl
    exact ⟨q, E, rfl, hE, hk, hb⟩
  have h := PGraph.Inv.registerAll (P := fun m l => m = n → l.DeadAt o s (elemOf o s p))
    (fun m l ts ht hl h hm => (h hm).after ht hl) off ns ⟨g, written⟩ hinv
  generalize (registerAll off ns ⟨g, written⟩).2.graph = G at *
  have hn : n < G.length := by
    rw [h.1]
    by_contra hc
    unfold PGraph.lay at hq
    rw [List.getElem?_eq_none (by omega)] at hq
    cases hq
  obtain ⟨l, ins, hG⟩ : ∃ l ins, G[n]? = some (l, ins) := ⟨_, _, List.getElem?_eq_getElem hn⟩
  have hd := (h.2 n l (PGraph.lay_of hG)).2 rfl
  obtain ⟨q', E', rfl, -⟩ := id hd
  unfold PGraph.value
  rw [G.eval_scan, List.getD, scan_get, hG]
  exact hd.eval _ hp rfl

/-- **C101**, in terms of what calibration recorded. If every value recorded at an element was zero (for a quantizer with a ReLU in front:
none was positive), the converted and registered model gives zero there for every input. -/
theorem C101_recorded_zero (g : PGraph) (hs : ∀ n l, g.lay n = some l → l.SignOk) (off : Option ℤ) (ns : List ℕ)
    (written : List (ℕ × ℕ × Conf)) (n : ℕ) (q : FPQ) (o s : List ℕ) (hq : g.lay n = some (.quant q o s)) (p : ℕ) (hp : p < prodL o)
    (mn mx fbw : ℚ) (posOnly : Bool) (hE : q.elems[elemOf o s p]? = some (proxyQ (bitsExact mn mx fbw posOnly)))
    (hf : -32 ≤ fbw) (h : (mn = 0 ∧ mx = 0) ∨ (posOnly = true ∧ mx ≤ 0)) (xs : ℕ → List ℚ) :
    at0 ((registerAll off ns ⟨g, written⟩).2.graph.value xs n) p = 0 := by
  have hf' : -32 ≤ tfRound fbw := tfRound_ge (by exact_mod_cast hf)
  have hz : proxyQ (bitsExact mn mx fbw posOnly) = KBI.pruned := by
    cases posOnly with
    | true => exact proxyQ_pruned (bitsExact_pos_zero hf' (by rcases h with h | h <;> [exact h.2.le; exact h.2]))
    | false =>
      obtain ⟨rfl, rfl⟩ : mn = 0 ∧ mx = 0 := by
        rcases h with h | h
        · exact h
        · exact absurd h.1 (by simp)
      exact (tight_recorded hf le_rfl (by decide +kernel) (by decide +kernel) ⟨0, by simp⟩ ⟨0, by simp⟩).zero rfl rfl
  exact C101_pruned_stays_zero g hs off ns written n q o s hq p hp _ hE (by rw [hz]; rfl) (by rw [hz]; exact le_rfl) xs

/-- an input, a quantizer to multiples of `2^-10` below `2^-3`, a quantizer that is dead altogether and one with a dead and a live
element -/
def deadGraph : PGraph :=
  [(.input, []), (.quant ⟨[⟨1, 8, -2⟩], .RND, .SAT⟩ [2] [1], [0]),
   (.quant ⟨[proxyQ (bitsExact 0 0 3 false)], .TRN, .SAT⟩ [2] [1], [1]),
   (.quant ⟨[proxyQ (bitsExact 0 0 5 false), proxyQ (bitsExact (-1) 1 5 false)], .TRN, .WRAP⟩ [2] [2], [1])]

-- the layers meet the hypothesis
example : ∀ n l, deadGraph.lay n = some l → l.SignOk := by
  intro n l h
  have hm : l ∈ deadGraph.map Prod.fst := by
    unfold PGraph.lay at h
    obtain ⟨e, he, rfl⟩ := Option.map_eq_some_iff.mp h
    exact List.mem_map_of_mem (List.mem_of_getElem? he)
  simp only [deadGraph, List.map_cons, List.map_nil, List.mem_cons, List.not_mem_nil, or_false] at hm
  rcases hm with rfl | rfl | rfl | rfl
  · trivial
  · show ∀ e ∈ _, _; decide +kernel
  · show ∀ e ∈ _, _; decide +kernel
  · show ∀ e ∈ _, _; decide +kernel

-- registering everything leaves -2 bits in the dead quantizer; the dead elements give zero, the live one does not
example : (registerAll none [0, 1, 2, 3] ⟨deadGraph, []⟩).2.graph.value (fun _ => [-1 / 10, 1 / 10]) 1 = [-51 / 512, 51 / 512] ∧
    (registerAll none [0, 1, 2, 3] ⟨deadGraph, []⟩).2.graph.value (fun _ => [-1 / 10, 1 / 10]) 2 = [0, 0] ∧
    (registerAll none [0, 1, 2, 3] ⟨deadGraph, []⟩).2.graph.value (fun _ => [-1 / 10, 1 / 10]) 3 = [0, 3 / 32] := by decide +kernel

end HGQ
