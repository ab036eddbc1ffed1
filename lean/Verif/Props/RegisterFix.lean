import Verif.Props.PrecGraph

/-!
# C111: deriving types settles

`get_produced_kif` shrinks the quantizers it passes, so a later derivation starts from other quantizers than an earlier one. That
this does not matter for the derived types, and that one registration of all layers brings the quantizers to their final state,
is shown here for every graph of the layers the type rules know, without the condition `PLay.Fits` of C89.
-/

namespace Spec

/-- what can be asked of a proxy model between two looks at it: the type of a layer (`get_produced_kif`), the types of the inbound
layers of a layer (`get_input_kifs`), the configuration of a layer, the registration of a layer, and the registration of several
layers in some order, as `to_proxy_model` does -/
inductive TypeOp
  | produced (n : ℕ)
  | inputs (n : ℕ)
  | config (off : Option ℤ) (n : ℕ)
  | register (off : Option ℤ) (n : ℕ)
  | registerAll (off : Option ℤ) (ns : List ℕ)

/-- the registry afterwards, whether the call returned or raised -/
def TypeOp.run (s : HGQ.Registry) : TypeOp → HGQ.Registry
  | .produced n => { s with graph := (s.graph.produced s.graph.length n).2 }
  | .inputs n => { s with graph := (s.graph.inputKifs n).2 }
  | .config off n => { s with graph := (s.graph.config off n).2 }
  | .register off n => (HGQ.register off s n).2
  | .registerAll off ns => (HGQ.registerAll off ns s).2

/-- … after several -/
def typeOps (s : HGQ.Registry) (ops : List TypeOp) : HGQ.Registry := ops.foldl TypeOp.run s

end Spec

namespace HGQ

open Spec

theorem listMax_eq {l : List ℤ} {m : ℤ} (hm : m ∈ l) (h : ∀ a ∈ l, a ≤ m) : listMax l = m :=
  le_antisymm (h _ (listMax_mem (List.ne_nil_of_mem hm))) (le_listMax hm)

theorem FPQ.kif_ge (q : FPQ) {e : KBI} (he : e ∈ q.elems) : e.keepNegative ≤ q.kif.k ∧
    e.integers - e.keepNegative ≤ q.kif.i ∧ e.bits - e.integers ≤ q.kif.f :=
  ⟨le_listMax (List.mem_map.mpr ⟨e, he, rfl⟩), le_listMax (List.mem_map.mpr ⟨e, he, rfl⟩), le_listMax (List.mem_map.mpr ⟨e, he, rfl⟩)⟩

theorem FPQ.kif_att (q : FPQ) (hne : q.elems ≠ []) : (∃ e ∈ q.elems, e.keepNegative = q.kif.k) ∧
    (∃ e ∈ q.elems, e.integers - e.keepNegative = q.kif.i) ∧ ∃ e ∈ q.elems, e.bits - e.integers = q.kif.f := by
  have h (fn : KBI → ℤ) : ∃ e ∈ q.elems, fn e = listMax (q.elems.map fn) := by
    obtain ⟨e, he, h⟩ := List.mem_map.mp (listMax_mem (l := q.elems.map fn) (by simpa using hne))
    exact ⟨e, he, h⟩
  exact ⟨h _, h _, h _⟩

/-- the quantizer with every element cut to at most the widths of `o` -/
def FPQ.cut (q : FPQ) (o : KIF) : FPQ := { q with elems := q.elems.map fun e =>
  { keepNegative := min e.keepNegative o.k, bits := min e.bits (o.k + o.i + o.f), integers := min e.integers (o.k + o.i) } }

theorem FPQ.cut_kif (q : FPQ) : q.cut q.kif = q := by
  unfold FPQ.cut
  have : (q.elems.map fun e => KBI.mk (min e.keepNegative q.kif.k) (min e.bits (q.kif.k + q.kif.i + q.kif.f))
      (min e.integers (q.kif.k + q.kif.i))) = q.elems := by
    refine (List.map_congr_left fun e he => ?_).trans (List.map_id _)
    obtain ⟨h1, h2, h3⟩ := q.kif_ge he
    rcases e with ⟨k, b, i⟩
    simp only at h1 h2 h3
    simp only [id, KBI.mk.injEq]
    omega
  rw [this]

theorem FPQ.cut_cut (q : FPQ) (o : KIF) : (q.cut o).cut o = q.cut o := by
  simp only [FPQ.cut, List.map_map, FPQ.mk.injEq, and_self, and_true]
  refine List.map_congr_left fun e _ => ?_
  simp

/-- the derivation cuts the quantizer to the returned type -/
theorem FPQ.produced_cut (q : FPQ) (inp : KIF) : (q.produced inp).2 = q.cut (q.produced inp).1 := by
  rw [q.produced_snd, q.produced_fst]
  split_ifs with h
  · rfl
  · push Not at h
    rw [h.1, h.2.1, h.2.2]
    exact q.cut_kif.symm

theorem settle_k {ik ok pk ok' e c : ℤ} (hp : pk = min ik ok) (he : e = ok) (hu : min e pk ≤ ok') (hc : min c pk = ok') :
    min ik ok' = pk := by omega

theorem settle_f {x pf i f f' b a cb ca : ℤ} (hp : pf = min i f) (he : b - a = f) (hu : min b (x + pf) - min a x ≤ f')
    (hc : min cb (x + pf) - min ca x = f') (hg : cb - ca ≤ f) : min i f' = pf := by
  rcases le_total a x with h1 | h1 <;> rcases le_total ca x with h2 | h2 <;>
    rcases le_total b (x + pf) with h3 | h3 <;> rcases le_total cb (x + pf) with h4 | h4 <;>
    simp only [h1, h2, h3, h4, min_eq_left, min_eq_right] at hu hc <;> omega

theorem settle_i {c : Prop} [Decidable c] {pk p i o o' a k ca ck : ℤ} (hp : p = if i ≤ o ∧ c then min i o + 1 else min i o)
    (he : a - k = o) (hu : min a (pk + p) - min k pk ≤ o') (hc : min ca (pk + p) - min ck pk = o') (hg : ca - ck ≤ o) :
    (if i ≤ o' ∧ c then min i o' + 1 else min i o') = p := by
  by_cases h : c <;> simp only [h, and_true, and_false, if_false] at hp ⊢ <;>
    rcases le_total k pk with h1 | h1 <;> rcases le_total ck pk with h2 | h2 <;>
    rcases le_total a (pk + p) with h3 | h3 <;> rcases le_total ca (pk + p) with h4 | h4 <;>
    simp only [h1, h2, h3, h4, min_eq_left, min_eq_right] at hu hc
  all_goals omega

/-- **C111**, one quantizer: whatever its elements, its rounding and saturation and the type before it, deriving its type a second
time returns the same type and leaves the same quantizer. -/
theorem C111_quantizer (q : FPQ) (inp : KIF) : (q.produced inp).2.produced inp = q.produced inp := by
  suffices h : ((q.produced inp).2.produced inp).1 = (q.produced inp).1 by
    refine Prod.ext h ?_
    rw [FPQ.produced_cut, h, FPQ.produced_cut, FPQ.cut_cut]
  rcases List.eq_nil_or_concat q.elems with hne | ⟨L, b, hb⟩
  · have : (q.produced inp).2 = q := by
      rw [FPQ.produced_cut]
      rcases q with ⟨l, r, s⟩
      simp only at hne
      subst hne
      rfl
    rw [this]
  have hne : q.elems ≠ [] := by rw [hb]; simp
  rw [FPQ.produced_cut]
  have hfst := q.produced_fst inp
  generalize hP : (q.produced inp).1 = P at hfst ⊢
  have hel : (q.cut P).elems = q.elems.map fun e =>
    KBI.mk (min e.keepNegative P.k) (min e.bits (P.k + P.i + P.f)) (min e.integers (P.k + P.i)) := rfl
  have hne' : (q.cut P).elems ≠ [] := by rw [hel]; simpa using hne
  obtain ⟨⟨ek, hek, ak⟩, ⟨ei, hei, ai⟩, ⟨ef, hef, af⟩⟩ := q.kif_att hne
  obtain ⟨⟨dk, hdk, bk⟩, ⟨di, hdi, bi⟩, ⟨df, hdf, bf⟩⟩ := (q.cut P).kif_att hne'
  have up (e : KBI) (he : e ∈ q.elems) := (q.cut P).kif_ge (e := KBI.mk (min e.keepNegative P.k) (min e.bits (P.k + P.i + P.f))
    (min e.integers (P.k + P.i))) (by rw [hel]; exact List.mem_map.mpr ⟨e, he, rfl⟩)
  rw [hel] at hdk hdi hdf
  obtain ⟨ck, hck, rfl⟩ := List.mem_map.mp hdk
  obtain ⟨ci, hci, rfl⟩ := List.mem_map.mp hdi
  obtain ⟨cf, hcf, rfl⟩ := List.mem_map.mp hdf
  have uk := up ek hek
  have ui := up ei hei
  have uf := up ef hef
  have gk := q.kif_ge hck
  have gi := q.kif_ge hci
  have gf := q.kif_ge hcf
  have ki := q.kif_ge hei
  have kf := q.kif_ge hef
  clear up
  rw [(q.cut P).produced_fst inp]
  generalize (q.cut P).kif = O' at *
  generalize q.kif = O at *
  simp only at bk bi bf uk ui uf
  have hPk : P.k = min inp.k O.k := by rw [hfst]
  have hPi : P.i = retI inp O := by rw [hfst]
  have hPf : P.f = min inp.f O.f := by rw [hfst]
  have h1 : min inp.k O'.k = P.k := settle_k hPk ak uk.1 bk
  have h3 : min inp.f O'.f = P.f := settle_f hPf af uf.2.2 bf gf.2.2
  have h2 : retI inp O' = P.i := by
    unfold retI at hPi ⊢
    rw [h3]
    rw [← hPf] at hPi
    exact settle_i hPi ai ui.2.1 bi gi.2.1
  rw [h1, h2, h3]

/-- asking a layer again gives the same answer and the same layer, in every graph -/
theorem PGraph.idem (g : PGraph) : g.Idem := by
  intro n l _
  cases l with
  | quant q o s =>
    have h := C111_quantizer q ((g.inTypes n).headD infKif)
    simp only [PLay.after, PLay.kif, h, and_self]
  | _ => exact ⟨rfl, rfl⟩

theorem Between.wf {g g' : PGraph} (hb : Between g g') (hwf : g.WF) : g'.WF :=
  fun n m hm => hwf n m (by rwa [hb.ins n] at hm)

theorem Between.typeOf {g g' : PGraph} (hb : Between g g') (hwf : g.WF) (n : ℕ) : g'.typeOf n = g.typeOf n := by
  obtain ⟨_, h1, -⟩ := Between.produced_of hwf g.idem (n + 1) g' n hb (by omega)
  obtain ⟨_, h2, -⟩ := Between.produced_of (hb.wf hwf) g'.idem (n + 1) g' n (Between.refl g') (by omega)
  rw [h1] at h2
  exact (congrArg Prod.fst h2).symm

theorem Between.inTypes {g g' : PGraph} (hb : Between g g') (hwf : g.WF) (n : ℕ) : g'.inTypes n = g.inTypes n := by
  unfold PGraph.inTypes
  rw [hb.ins n]
  exact List.map_congr_left fun m _ => hb.typeOf hwf m

theorem Between.run {g : PGraph} (hwf : g.WF) (s : Registry) (hb : Between g s.graph) (op : TypeOp) :
    Between g (op.run s).graph := by
  cases op with
  | produced n =>
    obtain ⟨g'', h1, h2⟩ := Between.produced_of' hwf g.idem s.graph n hb
    rw [← hb.1] at h1
    simp only [TypeOp.run, h1]; exact h2
  | inputs n =>
    obtain ⟨g'', h1, h2⟩ := Between.inputKifs_of hwf g.idem s.graph n hb
    simp only [TypeOp.run, h1]; exact h2
  | config off n => exact Between.config_of hwf g.idem off s.graph n hb
  | register off n => exact Between.register_of hwf g.idem off s n hb
  | registerAll off ns => exact Between.registerAll_of hwf g.idem off ns s hb

theorem Between.typeOps {g : PGraph} (hwf : g.WF) (ops : List TypeOp) : ∀ s : Registry, Between g s.graph →
    Between g (typeOps s ops).graph := by
  induction ops with
  | nil => exact fun s h => h
  | cons op ops ih => exact fun s h => ih _ (Between.run hwf s h op)

/-- **C111**, types. In every proxy model, whatever was derived and registered before, in any order, with any accumulator offsets,
completed or ended by an exception, the derived type of every layer is what it was at the start. -/
theorem C111_types {g : PGraph} (hwf : g.WF) (w : List (ℕ × ℕ × Conf)) (ops : List TypeOp) (n : ℕ) :
    ((typeOps ⟨g, w⟩ ops).graph.produced (n + 1) n).1 = (g.produced (n + 1) n).1 := by
  have hb := Between.typeOps hwf ops ⟨g, w⟩ (Between.refl g)
  obtain ⟨_, h1, -⟩ := Between.produced_of hwf g.idem (n + 1) _ n hb (by omega)
  obtain ⟨_, h2, -⟩ := Between.produced_of hwf g.idem (n + 1) _ n (Between.refl g) (by omega)
  rw [h1, h2]

/-! ### One complete registration settles the quantizers -/

/-- the layer at position `n` of `g'` is the layer of `g` after its type was asked -/
def Done (g g' : PGraph) (n : ℕ) : Prop := g'.lay n = (g.lay n).map fun l => l.after (g.inTypes n)

theorem Between.done_mono {g g1 g2 : PGraph} (hwf : g.WF) (h1 : Between g g1) (h2 : Between g1 g2) {n : ℕ} (hd : Done g g1 n) :
    Done g g2 n := by
  unfold Done at hd ⊢
  cases hl : g.lay n with
  | none =>
    rw [hl] at hd
    simp only [Option.map_none] at hd ⊢
    unfold PGraph.lay
    rw [h2.at_none hd]; rfl
  | some l =>
    rw [hl] at hd
    simp only [Option.map_some] at hd ⊢
    obtain ⟨l', h3, h4⟩ := h2.2 n _ hd
    rw [g2.lay_of h3]
    rcases h4 with rfl | rfl
    · rfl
    · rw [h1.inTypes hwf, (g.idem n l hl).2]

/-- `n` and everything asked by asking `n` have been asked -/
inductive Settled (g g' : PGraph) : ℕ → Prop
  | mk {n : ℕ} (h : Done g g' n) (hi : ∀ l, g.lay n = some l → l.queries = true → ∀ m ∈ g.ins n, Settled g g' m) : Settled g g' n

theorem Settled.done {g g' : PGraph} {n : ℕ} (h : Settled g g' n) : Done g g' n := by
  cases h with
  | mk h _ => exact h

theorem Settled.mono {g g1 g2 : PGraph} (hwf : g.WF) (h1 : Between g g1) (h2 : Between g1 g2) {n : ℕ} (hs : Settled g g1 n) :
    Settled g g2 n := by
  induction hs with
  | mk h _ ih => exact .mk (h1.done_mono hwf h2 h) ih

theorem Between.trans {g g1 g2 : PGraph} (hwf : g.WF) (h1 : Between g g1) (h2 : Between g1 g2) : Between g g2 := by
  refine ⟨h2.1.trans h1.1, fun n l hl => ?_⟩
  obtain ⟨l1, e1, c1⟩ := h1.2 n l hl
  obtain ⟨l2, e2, c2⟩ := h2.2 n l1 (g1.lay_of e1)
  refine ⟨l2, by rw [e2, h1.ins n], ?_⟩
  rw [h1.inTypes hwf] at c2
  rcases c1 with rfl | rfl
  · exact c2
  · right
    rcases c2 with rfl | rfl
    · rfl
    · exact (g.idem n l hl).2

/-- every derivation from a state leads to a state that is between that state and its end -/
theorem Between.step {g' : PGraph} (hwf : g'.WF) (fuel n : ℕ) (hn : n < fuel) : Between g' (g'.produced fuel n).2 := by
  obtain ⟨g'', h1, h2⟩ := Between.produced_of hwf g'.idem fuel g' n (Between.refl g') hn
  rw [h1]; exact h2

theorem Settled.produced {g : PGraph} (hwf : g.WF) (fuel : ℕ) : ∀ g' n, Between g g' → n < fuel →
    Settled g (g'.produced fuel n).2 n := by
  induction fuel with
  | zero => intro _ _ _ h; omega
  | succ fuel ih =>
    intro g' n hb hn
    cases hl : g.lay n with
    | none =>
      refine .mk ?_ (by simp [hl])
      unfold Done
      rw [hl]
      rw [PGraph.produced, hb.at_none hl]
      simp [PGraph.lay, hb.at_none hl]
    | some l =>
      obtain ⟨l', h1, h2⟩ := hb.2 n l hl
      have hq : l'.queries = l.queries := by
        rcases h2 with rfl | rfl
        · rfl
        · exact l.after_queries _
      by_cases hqq : l.queries = true
      · rw [PGraph.produced, h1]
        simp only [hq, hqq, if_true]
        -- the inbound layers, one after the other
        have key : ∀ (ms : List ℕ), (∀ m ∈ ms, m < fuel) → ∀ (acc : List KIF) (g1 : PGraph), Between g g1 →
            ∃ g2, (ms.foldl (fun (acc : List KIF × PGraph) m =>
              ((acc.1 ++ [(acc.2.produced fuel m).1], (acc.2.produced fuel m).2) : List KIF × PGraph)) (acc, g1)) =
                (acc ++ ms.map g.typeOf, g2) ∧ Between g g2 ∧ Between g1 g2 ∧ ∀ m ∈ ms, Settled g g2 m := by
          intro ms
          induction ms with
          | nil => exact fun _ acc g1 hb1 => ⟨g1, by simp, hb1, Between.refl g1, by simp⟩
          | cons m ms ihm =>
            intro hms acc g1 hb1
            have hm := hms m (by simp)
            obtain ⟨g3, e3, hb3⟩ := Between.produced_of hwf g.idem fuel g1 m hb1 hm
            have hs := ih g1 m hb1 hm
            have hst := Between.step (hb1.wf hwf) fuel m hm
            rw [e3] at hs hst
            simp only at hs hst
            obtain ⟨g2, e2, hb2, hb32, hall⟩ := ihm (fun m hm => hms m (by simp [hm])) (acc ++ [g.typeOf m]) g3 hb3
            refine ⟨g2, ?_, hb2, ?_, ?_⟩
            · rw [List.foldl_cons, e3]
              simp only
              rw [e2]; simp
            · exact Between.trans (hb1.wf hwf) hst hb32
            · intro j hj
              rcases List.mem_cons.mp hj with rfl | hj
              · exact hs.mono hwf hb3 hb32
              · exact hall j hj
        obtain ⟨g2, e2, hb2, hb12, hall⟩ := key (g.ins n) (fun m hm => by have := hwf n m hm; omega) [] g' hb
        rw [e2]
        simp only [List.nil_append]
        change Settled g (g2.set n (l'.after (g.inTypes n), g.ins n)) n
        obtain ⟨l2, h3, h4⟩ := hb2.2 n l hl
        have haft : l'.after (g.inTypes n) = l.after (g.inTypes n) := by
          rcases h2 with rfl | rfl
          · rfl
          · exact (g.idem n l hl).2
        have haft2 : l2.after (g.inTypes n) = l.after (g.inTypes n) := by
          rcases h4 with rfl | rfl
          · rfl
          · exact (g.idem n l hl).2
        rw [haft]
        have hnl : n < g2.length := by
          by_contra hc
          rw [List.getElem?_eq_none (by omega)] at h3; cases h3
        have hbs : Between g2 (g2.set n (l.after (g.inTypes n), g.ins n)) := by
          refine ⟨by rw [List.length_set], fun m lm hm => ?_⟩
          by_cases hmn : n = m
          · subst hmn
            refine ⟨l.after (g.inTypes n), by rw [List.getElem?_set_self hnl, hb2.ins n], .inr ?_⟩
            rw [g2.lay_of h3] at hm
            cases hm
            rw [hb2.inTypes hwf, haft2]
          · refine ⟨lm, ?_, .inl rfl⟩
            rw [List.getElem?_set_ne hmn]
            exact g2.of_lay hm
        refine .mk ?_ fun _ _ _ m hm => (hall m hm).mono hwf hb2 hbs
        unfold Done
        rw [hl, Option.map_some, PGraph.lay, List.getElem?_set_self hnl]
        rfl
      · have hqf : l.queries = false := by simpa using hqq
        refine .mk ?_ (by intro l2 h3 h4; rw [hl] at h3; cases h3; rw [hqf] at h4; cases h4)
        unfold Done
        rw [PGraph.produced, h1]
        simp only [hq, hqf, Bool.false_eq_true, if_false]
        rw [g'.lay_of h1, hl, Option.map_some]
        rcases h2 with rfl | rfl
        · rw [PLay.after_noquery hqf]
        · rfl

theorem Between.isQuant {g g' : PGraph} (hb : Between g g') (n : ℕ) : g'.isQuant n = g.isQuant n := by
  unfold PGraph.isQuant
  cases hl : g.lay n with
  | none => rw [PGraph.lay, hb.at_none hl]; rfl
  | some l =>
    obtain ⟨l', h1, h2⟩ := hb.2 n l hl
    rw [g'.lay_of h1]
    rcases h2 with rfl | rfl
    · rfl
    · cases l <;> rfl

theorem PGraph.isQuant_eq_true {g : PGraph} {n : ℕ} : g.isQuant n = true ↔ ∃ q o s, g.lay n = some (.quant q o s) := by
  unfold PGraph.isQuant
  constructor
  · intro h
    split at h
    · exact ⟨_, _, _, by assumption⟩
    · cases h
  · rintro ⟨q, o, s, h⟩
    rw [h]

/-- a quantizer whose type is not asked by its own registration is followed by another quantizer -/
theorem fusible_next {g : PGraph} {n : ℕ} {r : KifRS} (h : fusibleResult (g.downs n) = some r) :
    ∃ m, g.isQuant m = true ∧ n ∈ g.ins m := by
  unfold PGraph.downs at h
  match ho : g.outs n, h with
  | [m], h =>
    refine ⟨m, ?_, ?_⟩
    · rw [PGraph.isQuant_eq_true]
      simp only [List.map_cons, List.map_nil] at h
      cases hg : g.length with
      | zero => rw [hg] at h; simp [PGraph.down, fusibleResult] at h
      | succ k =>
        rw [hg, PGraph.down] at h
        split at h
        · exact ⟨_, _, _, by assumption⟩
        all_goals simp [fusibleResult] at h
    · have : m ∈ g.outs n := by rw [ho]; simp
      simp only [PGraph.outs, List.mem_flatMap, List.mem_map, List.mem_filter, decide_eq_true_eq] at this
      obtain ⟨a, _, b, ⟨hb, rfl⟩, rfl⟩ := this
      exact hb
  | [], h => simp [fusibleResult] at h
  | _ :: _ :: _, h => simp [fusibleResult] at h

theorem register_quant {g : PGraph} (hwf : g.WF) (off : Option ℤ) (s : Registry) (hb : Between g s.graph) (n : ℕ)
    (hq : g.isQuant n = true) : Settled g (register off s n).2.graph n ∨ ∃ m, g.isQuant m = true ∧ n ∈ g.ins m := by
  have hq' : s.graph.isQuant n = true := by rw [hb.isQuant, hq]
  obtain ⟨q, o, sh, hl⟩ := PGraph.isQuant_eq_true.mp hq'
  have hnl : n < g.length := by
    obtain ⟨_, _, _, h⟩ := PGraph.isQuant_eq_true.mp hq
    by_contra hc
    rw [PGraph.lay, List.getElem?_eq_none (by omega)] at h; cases h
  have hgr : (register off s n).2.graph = (s.graph.result n).2 := by
    have hc : (s.graph.config off n).2 = (s.graph.result n).2 := by
      unfold PGraph.config
      simp only [hl]
      split <;> rfl
    unfold register
    simp only [hl, PGraph.whateverQ, hq', if_true]
    split <;> simp only [hc]
  rw [hgr]
  unfold PGraph.result
  split
  · right
    obtain ⟨m, h1, h2⟩ := fusible_next (by assumption)
    exact ⟨m, by rw [← hb.isQuant, h1], by rw [← hb.ins]; exact h2⟩
  · left
    have hi : s.graph.isInput n = false := by unfold PGraph.isInput; rw [hl]
    simp only [hi, Bool.false_eq_true, if_false]
    rw [hb.1]
    exact Settled.produced hwf _ _ n hb hnl

theorem registerAll_quants {g : PGraph} (hwf : g.WF) (off : Option ℤ) (ns : List ℕ) : ∀ (s : Registry), Between g s.graph →
    (registerAll off ns s).1 = .ok () → ∀ n ∈ ns, g.isQuant n = true →
      Settled g (registerAll off ns s).2.graph n ∨ ∃ m, g.isQuant m = true ∧ n ∈ g.ins m := by
  induction ns with
  | nil => intro _ _ _ n hn; cases hn
  | cons a ns ih =>
    intro s hb hok n hn hq
    have h1 := Between.register_of hwf g.idem off s a hb
    simp only [registerAll] at hok ⊢
    split at hok
    · cases hok
    · rcases List.mem_cons.mp hn with rfl | hn
      · rcases register_quant hwf off s hb n hq with h | h
        · exact .inl (h.mono hwf h1 (Between.registerAll_of (h1.wf hwf) (PGraph.idem _) off ns _ (Between.refl _)))
        · exact .inr h
      · exact ih _ h1 hok n hn hq

theorem registerAll_settled {g : PGraph} (hwf : g.WF) (off : Option ℤ) (ns : List ℕ) (hns : ∀ n, g.isQuant n = true → n ∈ ns)
    (s : Registry) (hb : Between g s.graph) (hok : (registerAll off ns s).1 = .ok ()) (n : ℕ) (hq : g.isQuant n = true) :
    Settled g (registerAll off ns s).2.graph n := by
  have lt (m : ℕ) (h : g.isQuant m = true) : m < g.length := by
    obtain ⟨_, _, _, h⟩ := PGraph.isQuant_eq_true.mp h
    by_contra hc
    rw [PGraph.lay, List.getElem?_eq_none (by omega)] at h; cases h
  induction hk : g.length - n using Nat.strong_induction_on generalizing n with
  | _ k ih =>
    rcases registerAll_quants hwf off ns s hb hok n (hns n hq) hq with h | ⟨m, hm, hmem⟩
    · exact h
    · have h1 := hwf m n hmem
      have h2 := lt m hm
      have hs := ih (g.length - m) (by omega) m hm rfl
      cases hs with
      | mk _ hi =>
        obtain ⟨q, o, sh, hl⟩ := PGraph.isQuant_eq_true.mp hm
        exact hi _ hl rfl n hmem

/-- after a complete registration every layer is as asked -/
theorem registerAll_done {g : PGraph} (hwf : g.WF) (off : Option ℤ) (ns : List ℕ) (hns : ∀ n, g.isQuant n = true → n ∈ ns)
    (s : Registry) (hb : Between g s.graph) (hok : (registerAll off ns s).1 = .ok ()) (n : ℕ) :
    Done g (registerAll off ns s).2.graph n := by
  cases hq : g.isQuant n with
  | true => exact (registerAll_settled hwf off ns hns s hb hok n hq).done
  | false =>
    have hb' := Between.registerAll_of hwf g.idem off ns s hb
    unfold Done
    cases hl : g.lay n with
    | none => rw [PGraph.lay, hb'.at_none hl]; rfl
    | some l =>
      obtain ⟨l', h1, h2⟩ := hb'.2 n l hl
      rw [PGraph.lay_of h1, Option.map_some]
      rcases h2 with rfl | rfl
      · congr 1
        cases l' with
        | quant q o sh => rw [PGraph.isQuant, hl] at hq; cases hq
        | _ => rfl
      · rfl

theorem Done.ext {g g1 g2 : PGraph} (h1 : Between g g1) (h2 : Between g g2) (d1 : ∀ n, Done g g1 n) (d2 : ∀ n, Done g g2 n) :
    g1 = g2 := by
  apply List.ext_getElem?
  intro n
  have e : g1.lay n = g2.lay n := (d1 n).trans (d2 n).symm
  have i : g1.ins n = g2.ins n := by rw [h1.ins, h2.ins]
  cases hl : g1.lay n with
  | none =>
    rw [hl] at e
    unfold PGraph.lay at e hl
    rw [Option.map_eq_none_iff] at hl
    rw [hl, Option.map_eq_none_iff.mp e.symm]
  | some l =>
    rw [g1.of_lay hl, g2.of_lay (l := l) (by rw [← e, hl]), i]

/-- **C111**, quantizers. Take a proxy model and two histories of derivations and registrations, completed or not. If each is
followed by a registration of all quantizers that succeeds – in any order, together with any other layers, with any accumulator
offset – then the two models have the same quantizers. -/
theorem C111_settles {g : PGraph} (hwf : g.WF) (w w' : List (ℕ × ℕ × Conf)) (ops ops' : List TypeOp) (off off' : Option ℤ)
    (ns ns' : List ℕ) (hns : ∀ n, g.isQuant n = true → n ∈ ns) (hns' : ∀ n, g.isQuant n = true → n ∈ ns')
    (hok : (registerAll off ns (typeOps ⟨g, w⟩ ops)).1 = .ok ()) (hok' : (registerAll off' ns' (typeOps ⟨g, w'⟩ ops')).1 = .ok ()) :
    (registerAll off ns (typeOps ⟨g, w⟩ ops)).2.graph = (registerAll off' ns' (typeOps ⟨g, w'⟩ ops')).2.graph := by
  have hb := Between.typeOps hwf ops ⟨g, w⟩ (Between.refl g)
  have hb' := Between.typeOps hwf ops' ⟨g, w'⟩ (Between.refl g)
  exact Done.ext (Between.registerAll_of hwf g.idem off ns _ hb) (Between.registerAll_of hwf g.idem off' ns' _ hb')
    (registerAll_done hwf off ns hns _ hb hok) (registerAll_done hwf off' ns' hns' _ hb' hok')

/-- **C111**, the end. After a successful registration of all quantizers no further derivation or registration, completed or ended
by an exception, changes the model. -/
theorem C111_fixed {g : PGraph} (hwf : g.WF) (w : List (ℕ × ℕ × Conf)) (ops : List TypeOp) (off : Option ℤ) (ns : List ℕ)
    (hns : ∀ n, g.isQuant n = true → n ∈ ns) (hok : (registerAll off ns (typeOps ⟨g, w⟩ ops)).1 = .ok ()) (more : List TypeOp) :
    (typeOps (registerAll off ns (typeOps ⟨g, w⟩ ops)).2 more).graph = (registerAll off ns (typeOps ⟨g, w⟩ ops)).2.graph := by
  have hb := Between.typeOps hwf ops ⟨g, w⟩ (Between.refl g)
  have hb1 := Between.registerAll_of hwf g.idem off ns _ hb
  have hb2 := Between.typeOps (hb1.wf hwf) more (registerAll off ns (typeOps ⟨g, w⟩ ops)).2 (Between.refl _)
  have hd := registerAll_done hwf off ns hns _ hb hok
  exact (Done.ext hb1 (Between.trans hwf hb1 hb2) hd fun n => hb1.done_mono hwf hb2 (hd n)).symm

-- the hypotheses are met by a model with a saturating quantizer that is shrunk, after different histories and in different orders
example : (registerAll none [3, 1, 0, 2] (typeOps ⟨satGraph, []⟩ [.produced 2, .config (some 0) 3])).1 = .ok () ∧
    (registerAll (some 1) [0, 1, 2, 3] (typeOps ⟨satGraph, []⟩ [])).1 = .ok () ∧
    ∀ n, satGraph.isQuant n = true → n ∈ [3, 1, 0, 2] := by
  refine ⟨by decide +kernel, by decide +kernel, fun n h => ?_⟩
  rcases n with _ | _ | _ | _ | n
  iterate 4 simp
  simp [PGraph.isQuant, PGraph.lay, satGraph] at h

-- a quantizer directly behind a quantizer: registering the first does not ask for its type (the second is fusible), registering the
-- second does, and only then both are shrunk
example : let g : PGraph := [(.input, []), (.quant ⟨[⟨0, 4, 4⟩], .TRN, .SAT⟩ [1] [1], [0]),
      (.quant ⟨[⟨1, 9, 7⟩], .TRN, .SAT⟩ [1] [1], [1]), (.quant ⟨[⟨1, 12, 8⟩], .TRN, .SAT⟩ [1] [1], [2])]
    let elems (s : Registry) := s.graph.map fun e => match e.1 with | .quant q _ _ => q.elems | _ => []
    elems (register none ⟨g, []⟩ 2).2 = elems ⟨g, []⟩ ∧ (registerAll none [1, 2, 3] ⟨g, []⟩).1 = .ok () ∧
    elems (registerAll none [1, 2, 3] ⟨g, []⟩).2 = [[], [⟨0, 4, 4⟩], [⟨0, 4, 4⟩], [⟨0, 4, 4⟩]] := by decide +kernel

-- a heterogeneous saturating quantizer, outside every earlier idempotence theorem: the query changes it, a second one does not
example : let q : FPQ := ⟨[⟨1, 6, 5⟩, ⟨0, 3, 2⟩, ⟨1, 9, 3⟩], .RND, .SAT⟩
    (q.produced ⟨0, 3, 2⟩).2.elems = [⟨0, 5, 3⟩, ⟨0, 3, 2⟩, ⟨0, 5, 3⟩] ∧ (q.produced ⟨0, 3, 2⟩).1 = ⟨0, 3, 2⟩ ∧
    ((q.produced ⟨0, 3, 2⟩).2.produced ⟨0, 3, 2⟩).1 = ⟨0, 3, 2⟩ := by decide +kernel

/-! ## C112: registering again writes the same entries -/

/-- what one registration run writes is a function of the model: outcome, model afterwards and new entries do not depend on the
entries already there -/
theorem registerAll_written (off : Option ℤ) (ns : List ℕ) : ∀ (g : PGraph), ∃ r g' E, ∀ w, registerAll off ns ⟨g, w⟩ = (r, ⟨g', w ++ E⟩) := by
  induction ns with
  | nil => exact fun g => ⟨.ok (), g, [], fun w => by simp [registerAll]⟩
  | cons n ns ih =>
    intro g
    have h1 : ∃ r g' E, ∀ w, register off ⟨g, w⟩ n = (r, ⟨g', w ++ E⟩) := by
      unfold register
      simp only
      split
      · exact ⟨.ok (), g, [], fun w => by simp⟩
      · split
        · exact ⟨.error "no quantizer before or after it", g, [], fun w => by simp⟩
        · split
          · rename_i e _
            exact ⟨.error e, (g.config off n).2, [], fun w => by simp⟩
          · exact ⟨_, _, _, fun w => rfl⟩
    obtain ⟨r, g', E, h1⟩ := h1
    cases r with
    | error e => exact ⟨.error e, g', E, fun w => by simp [registerAll, h1]⟩
    | ok u =>
      obtain ⟨r, g'', E', h2⟩ := ih g'
      exact ⟨r, g'', E ++ E', fun w => by simp [registerAll, h1, h2]⟩

/-- **C112** (partial). Once all quantizers were registered successfully, every run of the registration has the same outcome and
writes the same entries, whatever was derived or registered before that registration or since, and in whichever order it was made.
Missing for the full property: the first registration itself, whose entries can differ (`C112_first_entries_differ`). -/
theorem C112_later_entries_partial {g : PGraph} (hwf : g.WF) (w w' : List (ℕ × ℕ × Conf)) (ops ops' : List TypeOp)
    (off off' : Option ℤ) (ns ns' : List ℕ) (hns : ∀ n, g.isQuant n = true → n ∈ ns) (hns' : ∀ n, g.isQuant n = true → n ∈ ns')
    (hok : (registerAll off ns (typeOps ⟨g, w⟩ ops)).1 = .ok ()) (hok' : (registerAll off' ns' (typeOps ⟨g, w'⟩ ops')).1 = .ok ())
    (more more' : List TypeOp) (off2 : Option ℤ) (ms : List ℕ) :
    let a := typeOps (registerAll off ns (typeOps ⟨g, w⟩ ops)).2 more
    let b := typeOps (registerAll off' ns' (typeOps ⟨g, w'⟩ ops')).2 more'
    (registerAll off2 ms a).1 = (registerAll off2 ms b).1 ∧
      ∃ E, (registerAll off2 ms a).2.written = a.written ++ E ∧ (registerAll off2 ms b).2.written = b.written ++ E := by
  intro a b
  have h : a.graph = b.graph := by
    rw [C111_fixed hwf w ops off ns hns hok more, C111_fixed hwf w' ops' off' ns' hns' hok' more']
    exact C111_settles hwf w w' ops ops' off off' ns ns' hns hns' hok hok'
  obtain ⟨r, g', E, hE⟩ := registerAll_written off2 ms a.graph
  have h1 : registerAll off2 ms a = (r, ⟨g', a.written ++ E⟩) := hE a.written
  have h2 : registerAll off2 ms b = (r, ⟨g', b.written ++ E⟩) := by
    have := hE b.written
    rw [h] at this
    exact this
  rw [h1, h2]
  exact ⟨rfl, E, rfl, rfl⟩

/-- **C112** (partial). If deriving the type of a layer leaves the model as it is, for every layer, then the first registration
writes what every later one writes. -/
theorem C112_unshrunk_partial {g : PGraph} (hwf : g.WF) (hg : ∀ n, (g.produced (n + 1) n).2 = g) (w : List (ℕ × ℕ × Conf))
    (ops : List TypeOp) (off : Option ℤ) (ms : List ℕ) :
    let a := typeOps ⟨g, w⟩ ops
    (registerAll off ms a).1 = (registerAll off ms ⟨g, w⟩).1 ∧
      ∃ E, (registerAll off ms a).2.written = a.written ++ E ∧ (registerAll off ms ⟨g, w⟩).2.written = w ++ E := by
  intro a
  have hd (n : ℕ) : Done g g n := by
    have h := (Settled.produced hwf (n + 1) g n (Between.refl g) (by omega)).done
    rwa [hg n] at h
  have hb := Between.typeOps hwf ops ⟨g, w⟩ (Between.refl g)
  have h : a.graph = g := (Done.ext (Between.refl g) hb hd fun n => (Between.refl g).done_mono hwf hb (hd n)).symm
  obtain ⟨r, g', E, hE⟩ := registerAll_written off ms g
  have h1 : registerAll off ms a = (r, ⟨g', a.written ++ E⟩) := by
    have := hE a.written
    rw [← h] at this
    exact this
  rw [h1, hE w]
  exact ⟨rfl, E, rfl, rfl⟩

/-- the entry of the layer at position `n` that counts: the last one written (`dict.update`) -/
def Registry.entry (s : Registry) (n : ℕ) : Option Conf := (s.written.filter (fun e => e.2.1 == n)).getLast?.map (·.2.2)

/-- C112 fails in general. The dense layer of this model stands before a saturating quantizer that its registration shrinks. The
first registration writes `fixed<6,4,TRN,SAT>` for the dense layer, the format before the shrinking; a second one writes
`fixed<4,4,TRN,SAT>`, the format of the quantizer that the proxy model has been using all along. -/
theorem C112_first_entries_differ : ∃ (g : PGraph), g.WF ∧
    let one := registerAll none (List.range g.length) ⟨g, []⟩
    let two := registerAll none (List.range g.length) one.2
    one.1 = .ok () ∧ two.1 = .ok () ∧ two.2.graph = one.2.graph ∧
    (one.2.entry 2).bind (fun c => c.lookup "result_t") = some (.inl "fixed<6,4,TRN,SAT>".toList) ∧
    (two.2.entry 2).bind (fun c => c.lookup "result_t") = some (.inl "fixed<4,4,TRN,SAT>".toList) := by
  have hwf : satGraph.WF := by
    intro n m hm
    rcases n with _ | _ | _ | _ | n
    · simp [satGraph, PGraph.ins] at hm
    all_goals (simp [satGraph, PGraph.ins] at hm; try omega)
  refine ⟨satGraph, hwf, by decide +kernel, by decide +kernel, ?_, by decide +kernel, by decide +kernel⟩
  exact C111_fixed hwf [] [] none (List.range satGraph.length)
    (fun n h => by
      rcases n with _ | _ | _ | _ | n
      iterate 4 simp [satGraph]
      simp [PGraph.isQuant, PGraph.lay, satGraph] at h) (by decide +kernel) [.registerAll none (List.range satGraph.length)]

/-- a model whose quantizers are no wider than what arrives: nothing is shrunk -/
def wideGraph : PGraph := [(.input, []), (.quant ⟨[⟨1, 6, 6⟩], .TRN, .WRAP⟩ [1] [1], [0]),
  (.linear [1 / 4] [] 1 1 (fun _ => [(0, 0)]) (fun _ => 0), [1]), (.quant ⟨[⟨1, 6, 4⟩], .TRN, .WRAP⟩ [1] [1], [2])]

example : (∀ n, (wideGraph.produced (n + 1) n).2 = wideGraph) ∧
    (registerAll none (List.range 4) ⟨wideGraph, []⟩).1 = .ok () := by
  refine ⟨fun n => ?_, by decide +kernel⟩
  rcases n with _ | _ | _ | _ | n
  · rfl
  · rfl
  · rfl
  · with_unfolding_all rfl
  · simp [PGraph.produced, wideGraph]

end HGQ
