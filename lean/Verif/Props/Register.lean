import Verif.Props.PrecGraph

/-!
C90: what registering the precisions of a proxy model does and does not touch, and where the configurations are written.
-/

namespace HGQ

open Spec

/-- an element of a quantizer with no width larger than before -/
def KBI.Le (e e' : KBI) : Prop := e.keepNegative ≤ e'.keepNegative ∧ e.bits ≤ e'.bits ∧ e.integers ≤ e'.integers

/-- `l'` is `l`, or `l` with some widths of its quantizer variables lowered -/
inductive PLay.Shrunk : PLay → PLay → Prop
  | same (l : PLay) : PLay.Shrunk l l
  | quant (es es' : List KBI) (R : Rnd) (S : Sat) (o s : List ℕ) (h : List.Forall₂ KBI.Le es' es) :
      PLay.Shrunk (.quant ⟨es, R, S⟩ o s) (.quant ⟨es', R, S⟩ o s)

/-- the same layers, wired the same way, with some widths of quantizer variables lowered -/
def PGraph.Shrunk (g g' : PGraph) : Prop := List.Forall₂ (fun e e' => PLay.Shrunk e.1 e'.1 ∧ e'.2 = e.2) g g'

theorem KBI.Le.trans {a b c : KBI} (h : KBI.Le a b) (h' : KBI.Le b c) : KBI.Le a c :=
  ⟨h.1.trans h'.1, h.2.1.trans h'.2.1, h.2.2.trans h'.2.2⟩

theorem forall₂_trans {α : Type} {R : α → α → Prop} (hR : ∀ a b c, R a b → R b c → R a c) :
    ∀ {x y z : List α}, List.Forall₂ R x y → List.Forall₂ R y z → List.Forall₂ R x z
  | _, _, _, .nil, .nil => .nil
  | _, _, _, .cons h t, .cons h' t' => .cons (hR _ _ _ h h') (forall₂_trans hR t t')

theorem PLay.Shrunk.trans {a b c : PLay} (h : PLay.Shrunk a b) (h' : PLay.Shrunk b c) : PLay.Shrunk a c := by
  cases h with
  | same => exact h'
  | quant es es' R S o s h =>
    cases h' with
    | same => exact .quant _ _ _ _ _ _ h
    | quant _ es'' _ _ _ _ h'' => exact .quant _ _ _ _ _ _ (forall₂_trans (R := KBI.Le) (fun _ _ _ h h' => h.trans h') h'' h)

theorem PGraph.Shrunk.refl (g : PGraph) : PGraph.Shrunk g g := List.forall₂_same.mpr fun _ _ => ⟨.same _, rfl⟩

theorem PGraph.Shrunk.trans {a b c : PGraph} (h : PGraph.Shrunk a b) (h' : PGraph.Shrunk b c) : PGraph.Shrunk a c :=
  forall₂_trans (fun _ _ _ h h' => ⟨h.1.trans h'.1, by rw [h'.2, h.2]⟩) h h'

theorem FPQ.produced_shrunk (q : FPQ) (t : KIF) (o s : List ℕ) :
    PLay.Shrunk (.quant q o s) (.quant (q.produced t).2 o s) := by
  rw [q.produced_snd]
  split_ifs
  · refine .quant q.elems _ q.rnd q.sat o s ?_
    rw [List.forall₂_map_left_iff, List.forall₂_same]
    intro e _
    exact ⟨min_le_left _ _, min_le_left _ _, min_le_left _ _⟩
  · exact .same _

theorem PLay.after_shrunk (l : PLay) (ts : List KIF) : PLay.Shrunk l (l.after ts) := by
  cases l with
  | quant q o s => exact q.produced_shrunk _ o s
  | _ => exact .same _

theorem PGraph.Shrunk.length {g g' : PGraph} (h : PGraph.Shrunk g g') : g'.length = g.length := (List.Forall₂.length_eq h).symm

theorem PGraph.Shrunk.get {g g' : PGraph} (h : PGraph.Shrunk g g') {n : ℕ} {e : PLay × List ℕ} (hn : g[n]? = some e) :
    ∃ e', g'[n]? = some e' ∧ PLay.Shrunk e.1 e'.1 ∧ e'.2 = e.2 := by
  induction h generalizing n with
  | nil => simp at hn
  | @cons a b _ _ hab _ ih =>
    cases n with
    | zero => simp at hn; subst hn; exact ⟨b, by simp, hab⟩
    | succ n => simpa using ih (by simpa using hn)

theorem PGraph.Shrunk.set {g g' : PGraph} (h : PGraph.Shrunk g g') {n : ℕ} {e e' : PLay × List ℕ} (hn : g[n]? = some e)
    (he : PLay.Shrunk e.1 e'.1 ∧ e'.2 = e.2) : PGraph.Shrunk g (g'.set n e') := by
  induction h generalizing n with
  | nil => simp at hn
  | @cons a b l l' hab t ih =>
    cases n with
    | zero =>
      simp at hn; subst hn
      exact .cons he t
    | succ n => exact .cons hab (ih (by simpa using hn))

theorem PGraph.produced_shrunk (fuel : ℕ) : ∀ (g : PGraph) (n : ℕ), PGraph.Shrunk g (g.produced fuel n).2 := by
  induction fuel with
  | zero => intro g n; exact .refl g
  | succ fuel ih =>
    intro g n
    rw [PGraph.produced]
    cases hg : g[n]? with
    | none => exact .refl g
    | some e =>
      obtain ⟨l, ins⟩ := e
      simp only
      split_ifs
      · have hf : ∀ (ms : List ℕ) (acc : List KIF) (g' : PGraph), PGraph.Shrunk g g' → PGraph.Shrunk g
            (ms.foldl (fun (acc : List KIF × PGraph) m =>
              ((acc.1 ++ [(acc.2.produced fuel m).1], (acc.2.produced fuel m).2) : List KIF × PGraph)) (acc, g')).2 := by
          intro ms
          induction ms with
          | nil => intro acc g' h; exact h
          | cons m ms ihm => intro acc g' h; exact ihm _ _ (h.trans (ih g' m))
        exact (hf ins [] g (.refl g)).set hg ⟨l.after_shrunk _, rfl⟩
      · exact .refl g

theorem PGraph.inputKifs_shrunk (g : PGraph) (n : ℕ) : PGraph.Shrunk g (g.inputKifs n).2 := by
  unfold PGraph.inputKifs
  have hf : ∀ (ms : List ℕ) (acc : List KIF) (g' : PGraph), PGraph.Shrunk g g' → PGraph.Shrunk g
      (ms.foldl (fun (acc : List KIF × PGraph) m =>
        ((acc.1 ++ [(acc.2.produced g.length m).1], (acc.2.produced g.length m).2) : List KIF × PGraph)) (acc, g')).2 := by
    intro ms
    induction ms with
    | nil => intro acc g' h; exact h
    | cons m ms ihm => intro acc g' h; exact ihm _ _ (h.trans (PGraph.produced_shrunk _ g' m))
  exact hf _ [] g (.refl g)

theorem PGraph.result_shrunk (g : PGraph) (n : ℕ) : PGraph.Shrunk g (g.result n).2 := by
  unfold PGraph.result
  split
  · exact .refl g
  · split_ifs
    · exact .refl g
    · exact PGraph.produced_shrunk _ g n

theorem PGraph.config_shrunk (off : Option ℤ) (g : PGraph) (n : ℕ) : PGraph.Shrunk g (g.config off n).2 := by
  unfold PGraph.config
  have hr := g.result_shrunk n
  generalize g.result n = r at hr ⊢
  simp only
  split
  · exact hr
  · split
    · exact hr.trans (PGraph.produced_shrunk _ _ _)
    · exact hr.trans (PGraph.inputKifs_shrunk _ _)
    · exact hr.trans (PGraph.inputKifs_shrunk _ _)
    · exact hr

theorem register_shrunk (off : Option ℤ) (s : Registry) (n : ℕ) : PGraph.Shrunk s.graph (register off s n).2.graph := by
  unfold register
  split
  · exact .refl _
  · split
    · exact .refl _
    · have := PGraph.config_shrunk off s.graph n
      simp only
      split <;> exact this

/-- **C90**. For every proxy model, registering precisions of any layers in any order, completed or not, keeps every layer,
its weights and activation, its inbound layers, and the rounding and overflow mode of every quantizer; the only thing that
may change is that stored widths of quantizers get smaller, none gets larger. -/
theorem C90_only_widths_shrink (off : Option ℤ) (ns : List ℕ) (s : Registry) :
    PGraph.Shrunk s.graph (registerAll off ns s).2.graph := by
  induction ns generalizing s with
  | nil => exact .refl _
  | cons n ns ih =>
    have h1 := register_shrunk off s n
    simp only [registerAll]
    split
    · exact h1
    · exact h1.trans (ih _)

/-! ### where configurations are written -/

/-- `Path g a b`: the output of layer `a` is used by layer `b`, directly or through other layers. -/
inductive Path (g : PGraph) : ℕ → ℕ → Prop
  | edge {a b : ℕ} : a ∈ g.ins b → Path g a b
  | step {a b c : ℕ} : a ∈ g.ins b → Path g b c → Path g a c

/-- the layer at `n` is a quantizer -/
def PGraph.QuantAt (g : PGraph) (n : ℕ) : Prop := ∃ q o s, g.lay n = some (.quant q o s)

theorem PGraph.isQuant_iff (g : PGraph) (n : ℕ) : g.isQuant n = true ↔ g.QuantAt n := by
  unfold PGraph.isQuant PGraph.QuantAt
  constructor
  · intro h
    split at h
    · rename_i q o s hh; exact ⟨q, o, s, hh⟩
    · cases h
  · rintro ⟨q, o, s, h⟩; rw [h]

theorem PGraph.mem_outs {g : PGraph} {n m : ℕ} : m ∈ g.outs n ↔ n ∈ g.ins m := by
  unfold PGraph.outs
  simp only [List.mem_flatMap, List.mem_range, List.mem_map, List.mem_filter, decide_eq_true_eq]
  constructor
  · rintro ⟨m', _, k, ⟨hk, rfl⟩, rfl⟩; exact hk
  · intro h
    refine ⟨m, ?_, n, ⟨h, rfl⟩, rfl⟩
    by_contra hc
    unfold PGraph.ins at h
    rw [List.getElem?_eq_none (by omega)] at h
    simp at h

theorem PGraph.nextQ_sound {g : PGraph} {fuel : ℕ} : ∀ {n m : ℕ}, g.nextQ fuel n = some m → g.QuantAt m ∧ Path g n m := by
  induction fuel with
  | zero => intro n m h; cases h
  | succ fuel ih =>
    intro n m h
    rw [PGraph.nextQ] at h
    obtain ⟨k, hk, h2⟩ := List.exists_of_findSome?_eq_some h
    have he := PGraph.mem_outs.mp hk
    split_ifs at h2 with hq
    · cases h2; exact ⟨(g.isQuant_iff _).mp hq, .edge he⟩
    · obtain ⟨h3, h4⟩ := ih h2
      exact ⟨h3, .step he h4⟩

theorem Path.snoc {g : PGraph} {a b c : ℕ} (h : Path g a b) (hbc : b ∈ g.ins c) : Path g a c := by
  induction h with
  | edge h => exact .step h (.edge hbc)
  | step h _ ih => exact .step h (ih hbc)

theorem PGraph.lastQ_sound {g : PGraph} {fuel : ℕ} : ∀ {n m : ℕ}, g.lastQ fuel n = some m → g.QuantAt m ∧ Path g m n := by
  induction fuel with
  | zero => intro n m h; cases h
  | succ fuel ih =>
    intro n m h
    rw [PGraph.lastQ] at h
    obtain ⟨k, hk, h2⟩ := List.exists_of_findSome?_eq_some h
    split_ifs at h2 with hq
    · cases h2; exact ⟨(g.isQuant_iff _).mp hq, .edge hk⟩
    · obtain ⟨h3, h4⟩ := ih h2
      exact ⟨h3, h4.snoc hk⟩

theorem PGraph.ins_lt {g : PGraph} {n m : ℕ} (h : m ∈ g.ins n) : n < g.length := by
  by_contra hc
  unfold PGraph.ins at h
  rw [List.getElem?_eq_none (by omega)] at h
  simp at h

theorem PGraph.nextQ_complete {g : PGraph} (hwf : g.WF) {n m : ℕ} (hp : Path g n m) (hq : g.QuantAt m) :
    ∀ {fuel : ℕ}, g.length ≤ fuel + n → g.nextQ fuel n ≠ none := by
  induction hp with
  | @edge a b h =>
    intro fuel hf hc
    have := hwf b a h
    have := PGraph.ins_lt h
    cases fuel with
    | zero => omega
    | succ fuel =>
      rw [PGraph.nextQ, List.findSome?_eq_none_iff] at hc
      have := hc b (PGraph.mem_outs.mpr h)
      rw [if_pos ((g.isQuant_iff b).mpr hq)] at this
      cases this
  | @step a b c h _ ih =>
    intro fuel hf hc
    have := hwf b a h
    have := PGraph.ins_lt h
    cases fuel with
    | zero => omega
    | succ fuel =>
      rw [PGraph.nextQ, List.findSome?_eq_none_iff] at hc
      have h2 := hc b (PGraph.mem_outs.mpr h)
      split_ifs at h2
      exact ih hq (by omega) h2

theorem Path.last {g : PGraph} {a c : ℕ} (h : Path g a c) : a ∈ g.ins c ∨ ∃ b, Path g a b ∧ b ∈ g.ins c := by
  induction h with
  | edge h => exact .inl h
  | step h h' ih =>
    rcases ih with ih | ⟨d, h1, h2⟩
    · exact .inr ⟨_, .edge h, ih⟩
    · exact .inr ⟨d, .step h h1, h2⟩

theorem PGraph.lastQ_complete {g : PGraph} (hwf : g.WF) : ∀ {fuel n m : ℕ}, Path g m n → g.QuantAt m → n < fuel →
    g.lastQ fuel n ≠ none := by
  intro fuel
  induction fuel with
  | zero => intro n m _ _ h; omega
  | succ fuel ih =>
    intro n m hp hq hf hc
    rw [PGraph.lastQ, List.findSome?_eq_none_iff] at hc
    rcases hp.last with h | ⟨b, h1, h2⟩
    · have := hc m h
      rw [if_pos ((g.isQuant_iff m).mpr hq)] at this
      cases this
    · have := hc b h2
      split_ifs at this
      exact ih h1 hq (by have := hwf n b h2; omega) this

/-- **C90**. The quantizer in which a layer's configuration is stored is the layer itself if it is a quantizer; otherwise a
quantizer behind the layer if there is one, otherwise one in front of it; and there is none only if no quantizer lies on any
path behind or in front of the layer. -/
theorem C90_storage_location {g : PGraph} (hwf : g.WF) (n : ℕ) :
    (∀ m, g.whateverQ n = some m → g.QuantAt m ∧
      (m = n ∨ ¬ g.QuantAt n ∧ Path g n m ∨
        ¬ g.QuantAt n ∧ (¬ ∃ m', g.QuantAt m' ∧ Path g n m') ∧ Path g m n)) ∧
    (g.whateverQ n = none ↔ ¬ g.QuantAt n ∧ ¬ ∃ m, g.QuantAt m ∧ (Path g n m ∨ Path g m n)) := by
  unfold PGraph.whateverQ
  by_cases hq : g.isQuant n = true
  · have hq' := (g.isQuant_iff n).mp hq
    rw [if_pos hq]
    refine ⟨fun m hm => ?_, ⟨fun h => (by cases h), fun h => absurd hq' h.1⟩⟩
    cases hm; exact ⟨hq', .inl rfl⟩
  · have hq' : ¬ g.QuantAt n := fun h => hq ((g.isQuant_iff n).mpr h)
    rw [if_neg hq]
    cases hn : g.nextQ g.length n with
    | some m =>
      obtain ⟨h1, h2⟩ := PGraph.nextQ_sound hn
      simp only
      refine ⟨fun m' hm => ?_, ⟨fun h => (by cases h), fun h => absurd ⟨m, h1, .inl h2⟩ h.2⟩⟩
      cases hm; exact ⟨h1, .inr (.inl ⟨hq', h2⟩)⟩
    | none =>
      have hno : ¬ ∃ m', g.QuantAt m' ∧ Path g n m' := by
        rintro ⟨m', h1, h2⟩
        exact PGraph.nextQ_complete hwf h2 h1 (by omega) hn
      simp only
      constructor
      · intro m hm
        obtain ⟨h1, h2⟩ := PGraph.lastQ_sound hm
        exact ⟨h1, .inr (.inr ⟨hq', hno, h2⟩)⟩
      · constructor
        · intro h
          refine ⟨hq', ?_⟩
          rintro ⟨m, h1, h2 | h2⟩
          · exact hno ⟨m, h1, h2⟩
          · exact PGraph.lastQ_complete hwf h2 h1 (by omega) h
        · rintro ⟨-, h⟩
          cases hl : g.lastQ (n + 1) n with
          | none => rfl
          | some m =>
            obtain ⟨h1, h2⟩ := PGraph.lastQ_sound hl
            exact absurd ⟨m, h1, .inr h2⟩ h

theorem PLay.Shrunk.isLut {l l' : PLay} (h : PLay.Shrunk l l') : (∃ L, l' = .lut L) ↔ ∃ L, l = .lut L := by
  cases h with
  | same => exact Iff.rfl
  | quant => constructor <;> (rintro ⟨L, h⟩; cases h)

/-- the layer at `n` is a lookup table (already carries its types) -/
def PGraph.LutAt (g : PGraph) (n : ℕ) : Prop := ∃ L, g.lay n = some (.lut L)

theorem PGraph.Shrunk.ins {g g' : PGraph} (h : PGraph.Shrunk g g') (n : ℕ) : g'.ins n = g.ins n := by
  cases hn : g[n]? with
  | none =>
    have : g'[n]? = none := by rw [List.getElem?_eq_none_iff] at hn ⊢; rw [h.length]; exact hn
    unfold PGraph.ins; rw [hn, this]
  | some e =>
    obtain ⟨e', h1, -, h3⟩ := h.get hn
    unfold PGraph.ins; rw [hn, h1]; simp [h3]

theorem PGraph.Shrunk.lay_none {g g' : PGraph} (h : PGraph.Shrunk g g') {n : ℕ} (hn : g.lay n = none) : g'.lay n = none := by
  unfold PGraph.lay at *
  rw [Option.map_eq_none_iff, List.getElem?_eq_none_iff] at *
  rw [h.length]; exact hn

theorem PGraph.Shrunk.lay {g g' : PGraph} (h : PGraph.Shrunk g g') {n : ℕ} {l : PLay} (hn : g.lay n = some l) :
    ∃ l', g'.lay n = some l' ∧ PLay.Shrunk l l' := by
  have := g.of_lay hn
  obtain ⟨⟨l', i⟩, h1, h2, h3⟩ := h.get this
  exact ⟨l', g'.lay_of h1, h2⟩

theorem PGraph.Shrunk.isQuant {g g' : PGraph} (h : PGraph.Shrunk g g') (n : ℕ) : g'.isQuant n = g.isQuant n := by
  unfold PGraph.isQuant
  cases hn : g.lay n with
  | none => rw [h.lay_none hn]
  | some l =>
    obtain ⟨l', h1, h2⟩ := h.lay hn
    rw [h1]
    cases h2 <;> rfl

theorem PGraph.Shrunk.lutAt {g g' : PGraph} (h : PGraph.Shrunk g g') (n : ℕ) : g'.LutAt n ↔ g.LutAt n := by
  unfold PGraph.LutAt
  cases hn : g.lay n with
  | none => rw [h.lay_none hn]
  | some l =>
    obtain ⟨l', h1, h2⟩ := h.lay hn
    rw [h1]
    simpa using h2.isLut

theorem PGraph.Shrunk.outs {g g' : PGraph} (h : PGraph.Shrunk g g') (n : ℕ) : g'.outs n = g.outs n := by
  unfold PGraph.outs
  rw [h.length]
  apply List.flatMap_congr
  intro m _
  rw [h.ins m]

theorem PGraph.Shrunk.nextQ {g g' : PGraph} (h : PGraph.Shrunk g g') (fuel : ℕ) : ∀ n, g'.nextQ fuel n = g.nextQ fuel n := by
  induction fuel with
  | zero => intro n; rfl
  | succ fuel ih =>
    intro n
    rw [PGraph.nextQ, PGraph.nextQ, h.outs]
    congr 1
    funext m
    rw [h.isQuant, ih]

theorem PGraph.Shrunk.lastQ {g g' : PGraph} (h : PGraph.Shrunk g g') (fuel : ℕ) : ∀ n, g'.lastQ fuel n = g.lastQ fuel n := by
  induction fuel with
  | zero => intro n; rfl
  | succ fuel ih =>
    intro n
    rw [PGraph.lastQ, PGraph.lastQ, h.ins]
    congr 1
    funext m
    rw [h.isQuant, ih]

theorem PGraph.Shrunk.whateverQ {g g' : PGraph} (h : PGraph.Shrunk g g') (n : ℕ) : g'.whateverQ n = g.whateverQ n := by
  unfold PGraph.whateverQ
  rw [h.isQuant, h.length, h.nextQ, h.lastQ]

open Classical in
theorem register_ok {off : Option ℤ} {s : Registry} {n : ℕ} (h : (register off s n).1 = .ok ()) :
    (s.graph.LutAt n ∧ (register off s n).2 = s) ∨
    (¬ s.graph.LutAt n ∧ ∃ q c, s.graph.whateverQ n = some q ∧ (s.graph.config off n).1 = .ok c ∧
      (register off s n).2 = ⟨(s.graph.config off n).2, s.written ++ [(q, n, c)]⟩) := by
  by_cases hL : s.graph.LutAt n
  · left
    refine ⟨hL, ?_⟩
    obtain ⟨L, hL⟩ := hL
    unfold register; rw [hL]
  · right
    refine ⟨hL, ?_⟩
    have e : register off s n = match s.graph.whateverQ n with
      | none => (.error "no quantizer before or after it", s)
      | some q =>
        let c := s.graph.config off n
        match c.1 with
        | .error e => (.error e, { s with graph := c.2 })
        | .ok conf => (.ok (), ⟨c.2, s.written ++ [(q, n, conf)]⟩) := by
      unfold register
      split
      · rename_i L hh; exact absurd ⟨L, hh⟩ hL
      · rfl
    rw [e] at h ⊢
    cases hw : s.graph.whateverQ n with
    | none => rw [hw] at h; cases h
    | some q =>
      rw [hw] at h
      simp only at h ⊢
      cases hc : (s.graph.config off n).1 with
      | error m => rw [hc] at h; cases h
      | ok c => exact ⟨q, c, rfl, rfl, rfl⟩

open Classical in
/-- **C90**. When registration of the layers `ns` succeeds, exactly one configuration is written for each of them, in order,
except for lookup tables; it is stored in the quantizer determined by `C90_storage_location` on the model as it was, and it is
the configuration derived for that very layer, at a time when some widths may already have shrunk. -/
theorem C90_every_layer_registered_once {off : Option ℤ} {ns : List ℕ} {g : PGraph}
    (h : (registerAll off ns ⟨g, []⟩).1 = .ok ()) :
    (registerAll off ns ⟨g, []⟩).2.written.map (·.2.1) = ns.filter (fun n => decide (¬ g.LutAt n)) ∧
    ∀ w ∈ (registerAll off ns ⟨g, []⟩).2.written, g.whateverQ w.2.1 = some w.1 ∧
      ∃ g', PGraph.Shrunk g g' ∧ (g'.config off w.2.1).1 = .ok w.2.2 := by
  have key : ∀ (ns : List ℕ) (s : Registry), PGraph.Shrunk g s.graph → (registerAll off ns s).1 = .ok () →
      ∃ new, (registerAll off ns s).2.written = s.written ++ new ∧
        new.map (·.2.1) = ns.filter (fun n => decide (¬ g.LutAt n)) ∧ ∀ w ∈ new, g.whateverQ w.2.1 = some w.1 ∧
          ∃ g', PGraph.Shrunk g g' ∧ (g'.config off w.2.1).1 = .ok w.2.2 := by
    intro ns
    induction ns with
    | nil => intro s _ _; exact ⟨[], by simp [registerAll], rfl, by simp⟩
    | cons n ns ih =>
      intro s hs hok
      simp only [registerAll] at hok ⊢
      cases hr : (register off s n).1 with
      | error e => rw [hr] at hok; cases hok
      | ok u =>
        rw [hr] at hok
        simp only at hok ⊢
        have hs' := hs.trans (register_shrunk off s n)
        obtain ⟨new, h1, h2, h3⟩ := ih _ hs' hok
        rcases register_ok hr with ⟨hL, e⟩ | ⟨hL, q, c, hq, hc, e⟩
        · rw [hs.lutAt] at hL
          refine ⟨new, by rw [h1, e], ?_, h3⟩
          rw [h2, List.filter_cons_of_neg (by simpa using hL)]
        · rw [hs.lutAt] at hL
          refine ⟨(q, n, c) :: new, by rw [h1, e]; simp, ?_, ?_⟩
          · rw [List.filter_cons_of_pos (by simpa using hL), List.map_cons, h2]
          · intro w hw
            rcases List.mem_cons.mp hw with rfl | hw
            · exact ⟨by rw [← hs.whateverQ]; exact hq, s.graph, hs, hc⟩
            · exact h3 w hw
  obtain ⟨new, h1, h2, h3⟩ := key ns ⟨g, []⟩ (.refl g) h
  simp only [List.nil_append] at h1
  rw [h1]; exact ⟨h2, h3⟩

/-- **C90**. A layer with no quantizer in front of it or behind it makes registration fail, and nothing is written or changed
for it. -/
theorem C90_fails_without_quantizer {g : PGraph} (hwf : g.WF) (off : Option ℤ) (n : ℕ) (hL : ¬ g.LutAt n)
    (hq : ¬ g.QuantAt n) (hno : ¬ ∃ m, g.QuantAt m ∧ (Path g n m ∨ Path g m n)) (w : List (ℕ × ℕ × Conf)) :
    ∃ e, register off ⟨g, w⟩ n = (.error e, ⟨g, w⟩) := by
  have hn := (C90_storage_location hwf n).2.mpr ⟨hq, hno⟩
  refine ⟨"no quantizer before or after it", ?_⟩
  unfold register
  split
  · rename_i L hh; exact absurd ⟨L, hh⟩ hL
  · simp only [hn]

-- registration of the example model stores the six configurations in these quantizers
example : ((registerAll none [0, 1, 2, 3, 4, 5] ⟨demoGraph, []⟩).2.written.map fun w => (w.1, w.2.1)) =
    [(1, 0), (1, 1), (3, 2), (3, 3), (5, 4), (5, 5)] := by decide +kernel
-- a dense layer directly behind the input, with no quantizer anywhere
example : (register none ⟨[(.input, []), (.linear [1] [] 1 1 (fun _ => [(0, 0)]) (fun _ => 0), [0])], []⟩ 1).1 =
    .error "no quantizer before or after it" := by decide +kernel

end HGQ
