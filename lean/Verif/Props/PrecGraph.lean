import Verif.Lemmas.PrecGraph

/-!
C89: registering the precisions of a proxy model (`to_proxy_model(..., skip_precision_reg=False)`) does not change what the
model computes, and the derived types do not depend on what was asked before.
-/

namespace HGQ

open Spec

/-- `g'` is `g` after some of its layers have been asked for their types -/
def Between (g g' : PGraph) : Prop :=
  g'.length = g.length ∧ ∀ n l, g.lay n = some l → ∃ l', g'[n]? = some (l', g.ins n) ∧
    (l' = l ∨ l' = l.after (g.inTypes n))

theorem Between.refl (g : PGraph) : Between g g := ⟨rfl, fun _ l h => ⟨l, g.of_lay h, .inl rfl⟩⟩

theorem Between.at_none {g g' : PGraph} (h : Between g g') {n : ℕ} (hn : g.lay n = none) : g'[n]? = none := by
  unfold PGraph.lay at hn
  rw [Option.map_eq_none_iff] at hn
  rw [List.getElem?_eq_none_iff] at hn ⊢
  rw [h.1]; exact hn

theorem Between.ins {g g' : PGraph} (h : Between g g') (n : ℕ) : g'.ins n = g.ins n := by
  cases hl : g.lay n with
  | none =>
    have h1 := h.at_none hl
    unfold PGraph.lay at hl
    rw [Option.map_eq_none_iff] at hl
    unfold PGraph.ins; rw [h1, hl]
  | some l =>
    obtain ⟨l', h1, -⟩ := h.2 n l hl
    exact g'.ins_of h1

theorem PLay.after_queries (l : PLay) (ts : List KIF) : (l.after ts).queries = l.queries := by cases l <;> rfl

theorem PLay.kif_noquery {l : PLay} (h : l.queries = false) (ts : List KIF) : l.kif [] = l.kif ts := by
  cases l <;> simp [PLay.queries] at h <;> rfl

theorem PLay.after_noquery {l : PLay} (h : l.queries = false) (ts : List KIF) : l.after ts = l := by
  cases l <;> simp [PLay.queries] at h <;> rfl

/-- asking a layer again gives the same answer and the same layer -/
def PGraph.Idem (g : PGraph) : Prop := ∀ n l, g.lay n = some l →
  (l.after (g.inTypes n)).kif (g.inTypes n) = l.kif (g.inTypes n) ∧ (l.after (g.inTypes n)).after (g.inTypes n) = l.after (g.inTypes n)

section
variable {g : PGraph} (hwf : g.WF) (hid : g.Idem)
include hwf hid

theorem Between.foldl_of {fuel : ℕ}
    (ih : ∀ g' m, Between g g' → m < fuel → ∃ g'', g'.produced fuel m = (g.typeOf m, g'') ∧ Between g g'')
    (ms : List ℕ) (hms : ∀ m ∈ ms, m < fuel) (acc : List KIF) (g' : PGraph) (hb : Between g g') :
    ∃ g'', ms.foldl (fun (acc : List KIF × PGraph) m =>
        ((acc.1 ++ [(acc.2.produced fuel m).1], (acc.2.produced fuel m).2) : List KIF × PGraph)) (acc, g') =
      (acc ++ ms.map g.typeOf, g'') ∧ Between g g'' := by
  induction ms generalizing acc g' with
  | nil => exact ⟨g', by simp, hb⟩
  | cons m ms ihm =>
    obtain ⟨g1, h1, hb1⟩ := ih g' m hb (hms m (by simp))
    obtain ⟨g2, h2, hb2⟩ := ihm (fun m hm => hms m (by simp [hm])) (acc ++ [g.typeOf m]) g1 hb1
    refine ⟨g2, ?_, hb2⟩
    rw [List.foldl_cons, h1, h2]; simp

/-- whatever was asked before, a layer answers with the same type -/
theorem Between.produced_of (fuel : ℕ) : ∀ g' n, Between g g' → n < fuel →
    ∃ g'', g'.produced fuel n = (g.typeOf n, g'') ∧ Between g g'' := by
  induction fuel with
  | zero => intro _ _ _ h; omega
  | succ fuel ih =>
    intro g' n hb hn
    cases hl : g.lay n with
    | none =>
      refine ⟨g', ?_, hb⟩
      rw [PGraph.produced, hb.at_none hl, PGraph.typeOf_none hl]
    | some l =>
      obtain ⟨l', h1, h2⟩ := hb.2 n l hl
      obtain ⟨i1, i2⟩ := hid n l hl
      have hq : l'.queries = l.queries := by
        rcases h2 with rfl | rfl
        · rfl
        · exact l.after_queries _
      have hkif : l'.kif (g.inTypes n) = g.typeOf n := by
        rw [PGraph.typeOf_eq hwf hl]
        rcases h2 with rfl | rfl
        · rfl
        · exact i1
      have haft : l'.after (g.inTypes n) = l.after (g.inTypes n) := by
        rcases h2 with rfl | rfl
        · rfl
        · exact i2
      rw [PGraph.produced, h1]
      simp only
      by_cases hqq : l'.queries = true
      · rw [if_pos hqq]
        obtain ⟨g1, e1, hb1⟩ := Between.foldl_of hwf hid ih (g.ins n) (fun m hm => by have := hwf n m hm; omega) [] g' hb
        rw [e1]
        simp only [List.nil_append]
        change ∃ g'', (l'.kif (g.inTypes n), g1.set n (l'.after (g.inTypes n), g.ins n)) = _ ∧ _
        rw [hkif, haft]
        refine ⟨_, rfl, ?_⟩
        refine ⟨by rw [List.length_set, hb1.1], ?_⟩
        intro m lm hm
        obtain ⟨lm', h3, h4⟩ := hb1.2 m lm hm
        by_cases hmn : n = m
        · subst hmn
          rw [hl] at hm
          cases hm
          refine ⟨l.after (g.inTypes n), ?_, .inr rfl⟩
          rw [List.getElem?_set_self]
          by_contra hc
          rw [List.getElem?_eq_none (by omega)] at h3; cases h3
        · refine ⟨lm', ?_, h4⟩
          rw [List.getElem?_set_ne hmn]; exact h3
      · rw [if_neg hqq]
        have hqf : l'.queries = false := by simpa using hqq
        refine ⟨g', ?_, hb⟩
        rw [PLay.kif_noquery hqf (g.inTypes n), hkif]

theorem Between.produced_of' (g' : PGraph) (n : ℕ) (hb : Between g g') :
    ∃ g'', g'.produced g.length n = (g.typeOf n, g'') ∧ Between g g'' := by
  rcases Nat.lt_or_ge n g.length with h | h
  · exact Between.produced_of hwf hid g.length g' n hb h
  · have hl : g.lay n = none := by unfold PGraph.lay; rw [List.getElem?_eq_none h]; rfl
    refine ⟨g', ?_, hb⟩
    rw [PGraph.typeOf_none hl]
    cases hg : g.length with
    | zero => rfl
    | succ k => rw [PGraph.produced, hb.at_none hl]

theorem Between.inputKifs_of (g' : PGraph) (n : ℕ) (hb : Between g g') :
    ∃ g'', g'.inputKifs n = (g.inTypes n, g'') ∧ Between g g'' := by
  unfold PGraph.inputKifs
  rw [hb.ins n, hb.1]
  by_cases hn : n < g.length
  · obtain ⟨g'', h1, h2⟩ := Between.foldl_of hwf hid (fuel := g.length) (fun g' m hb _ => Between.produced_of' hwf hid g' m hb)
      (g.ins n) (fun m hm => by have := hwf n m hm; omega) [] g' hb
    exact ⟨g'', by rw [h1]; rfl, h2⟩
  · have : g.ins n = [] := by unfold PGraph.ins; rw [List.getElem?_eq_none (by omega)]; rfl
    unfold PGraph.inTypes
    rw [this]
    exact ⟨g', rfl, hb⟩

theorem Between.result_of (g' : PGraph) (n : ℕ) (hb : Between g g') : Between g (g'.result n).2 := by
  unfold PGraph.result
  split
  · exact hb
  · split_ifs
    · exact hb
    · rw [hb.1]
      obtain ⟨g'', h1, h2⟩ := Between.produced_of' hwf hid g' n hb
      simp only [h1]; exact h2

theorem Between.config_of (off : Option ℤ) (g' : PGraph) (n : ℕ) (hb : Between g g') : Between g (g'.config off n).2 := by
  unfold PGraph.config
  have hr := Between.result_of hwf hid g' n hb
  generalize g'.result n = r at hr ⊢
  simp only
  split
  · exact hr
  · split
    · rw [hb.1]
      obtain ⟨g'', h1, h2⟩ := Between.produced_of' hwf hid r.2 n hr
      simp only [h1]; exact h2
    · obtain ⟨g'', h1, h2⟩ := Between.inputKifs_of hwf hid r.2 n hr
      simp only [h1]; exact h2
    · obtain ⟨g'', h1, h2⟩ := Between.inputKifs_of hwf hid r.2 n hr
      simp only [h1]; exact h2
    · exact hr

theorem Between.register_of (off : Option ℤ) (s : Registry) (n : ℕ) (hb : Between g s.graph) :
    Between g (register off s n).2.graph := by
  unfold HGQ.register
  split
  · exact hb
  · split
    · exact hb
    · have := Between.config_of hwf hid off s.graph n hb
      simp only
      split <;> exact this

theorem Between.registerAll_of (off : Option ℤ) (ns : List ℕ) (s : Registry) (hb : Between g s.graph) :
    Between g (registerAll off ns s).2.graph := by
  induction ns generalizing s with
  | nil => exact hb
  | cons n ns ih =>
    have h1 := Between.register_of hwf hid off s n hb
    simp only [HGQ.registerAll]
    split
    · exact h1
    · exact ih _ h1

end

section
variable {g : PGraph} (hwf : g.WF) (hfit : g.Fits)
include hwf hfit

theorem PGraph.types_k01 (n : ℕ) : (g.typeOf n).k = 0 ∨ (g.typeOf n).k = 1 := by
  induction n using Nat.strong_induction_on with
  | _ n ih =>
    cases hl : g.lay n with
    | none => rw [PGraph.typeOf_none hl]; right; rfl
    | some l =>
      rw [PGraph.typeOf_eq hwf hl]
      apply PLay.kif_k01 (hfit n l hl)
      intro t ht
      obtain ⟨m, hm, rfl⟩ := List.mem_map.mp ht
      exact ih m (hwf n m hm)

theorem PGraph.inTypes_k01 (n : ℕ) : ∀ t ∈ g.inTypes n, t.k = 0 ∨ t.k = 1 := by
  intro t ht
  obtain ⟨m, hm, rfl⟩ := List.mem_map.mp ht
  exact PGraph.types_k01 hwf hfit m

theorem PGraph.Fits.idem : g.Idem := fun n l hl => PLay.idem (hfit n l hl) (PGraph.inTypes_k01 hwf hfit n)

/-- whatever was asked before, a layer answers with the same type -/
theorem Between.produced (fuel : ℕ) : ∀ g' n, Between g g' → n < fuel →
    ∃ g'', g'.produced fuel n = (g.typeOf n, g'') ∧ Between g g'' :=
  Between.produced_of hwf (PGraph.Fits.idem hwf hfit) fuel

theorem Between.produced' (g' : PGraph) (n : ℕ) (hb : Between g g') :
    ∃ g'', g'.produced g.length n = (g.typeOf n, g'') ∧ Between g g'' :=
  Between.produced_of' hwf (PGraph.Fits.idem hwf hfit) g' n hb

theorem Between.inputKifs (g' : PGraph) (n : ℕ) (hb : Between g g') :
    ∃ g'', g'.inputKifs n = (g.inTypes n, g'') ∧ Between g g'' :=
  Between.inputKifs_of hwf (PGraph.Fits.idem hwf hfit) g' n hb

theorem Between.result (g' : PGraph) (n : ℕ) (hb : Between g g') : Between g (g'.result n).2 :=
  Between.result_of hwf (PGraph.Fits.idem hwf hfit) g' n hb

theorem Between.config (off : Option ℤ) (g' : PGraph) (n : ℕ) (hb : Between g g') : Between g (g'.config off n).2 :=
  Between.config_of hwf (PGraph.Fits.idem hwf hfit) off g' n hb

theorem Between.register (off : Option ℤ) (s : Registry) (n : ℕ) (hb : Between g s.graph) :
    Between g (register off s n).2.graph :=
  Between.register_of hwf (PGraph.Fits.idem hwf hfit) off s n hb

theorem Between.registerAll (off : Option ℤ) (ns : List ℕ) (s : Registry) (hb : Between g s.graph) :
    Between g (registerAll off ns s).2.graph :=
  Between.registerAll_of hwf (PGraph.Fits.idem hwf hfit) off ns s hb

theorem PGraph.values_hold (xs : ℕ → List ℚ) (hxs : ∀ n, infKif.HoldsAll (xs n)) (n : ℕ) :
    (g.typeOf n).HoldsAll (g.value xs n) := by
  induction n using Nat.strong_induction_on with
  | _ n ih =>
    cases hl : g.lay n with
    | none => rw [PGraph.value_none hl]; intro v hv; cases hv
    | some l =>
      rw [PGraph.typeOf_eq hwf hl]
      by_cases hi : l = .input
      · subst hi; rw [PGraph.value_input hl]; exact hxs n
      · rw [PGraph.value_eq hwf hl hi]
        refine (PLay.sound (hfit n l hl) (PGraph.inTypes_k01 hwf hfit n) hi ?_).1
        unfold PGraph.inTypes InsHold
        rw [List.forall₂_map_left_iff, List.forall₂_map_right_iff, List.forall₂_same]
        intro m hm
        exact ih m (hwf n m hm)

theorem Between.value {g' : PGraph} (hb : Between g g') (xs : ℕ → List ℚ) (hxs : ∀ n, infKif.HoldsAll (xs n)) (n : ℕ) :
    g'.value xs n = g.value xs n := by
  have hwf' : g'.WF := fun n m hm => hwf n m (by rwa [hb.ins n] at hm)
  induction n using Nat.strong_induction_on with
  | _ n ih =>
    cases hl : g.lay n with
    | none =>
      rw [PGraph.value_none hl, PGraph.value_none]
      unfold PGraph.lay; rw [hb.at_none hl]; rfl
    | some l =>
      obtain ⟨l', h1, h2⟩ := hb.2 n l hl
      have hl' : g'.lay n = some l' := g'.lay_of h1
      by_cases hi : l = .input
      · subst hi
        have : l' = .input := by rcases h2 with rfl | rfl <;> rfl
        subst this
        rw [PGraph.value_input hl, PGraph.value_input hl']
      · have hi' : l' ≠ .input := by
          rcases h2 with rfl | rfl
          · exact hi
          · intro h; apply hi
            cases l <;> simp [PLay.after] at h ⊢
        rw [PGraph.value_eq hwf hl hi, PGraph.value_eq hwf' hl' hi', hb.ins n]
        have hm : (g.ins n).map (g'.value xs) = (g.ins n).map (g.value xs) :=
          List.map_congr_left fun m hm => ih m (hwf n m hm)
        rw [hm]
        rcases h2 with rfl | rfl
        · rfl
        · refine (PLay.sound (hfit n l hl) (PGraph.inTypes_k01 hwf hfit n) hi ?_).2
          unfold PGraph.inTypes InsHold
          rw [List.forall₂_map_left_iff, List.forall₂_map_right_iff, List.forall₂_same]
          intro m _
          exact PGraph.values_hold hwf hfit xs hxs m

/-- **C89** (partial). If every layer fits the types derived for its inputs, then registering the precisions of any layers
in any order, any number of times, completed or ended by an exception, leaves the function of every layer of the proxy
model as it was, for all inputs. Missing for the full property: models with a layer that does not fit, where the code does
change the outputs (`C89_registration_changes_output`). -/
theorem C89_registration_keeps_function_partial (off : Option ℤ) (ns : List ℕ) (xs : ℕ → List ℚ)
    (hxs : ∀ n, infKif.HoldsAll (xs n)) : (registerAll off ns ⟨g, []⟩).2.graph.eval xs = g.eval xs := by
  have hb := Between.registerAll hwf hfit off ns ⟨g, []⟩ (Between.refl g)
  exact PGraph.eval_ext hb.1 xs fun n => Between.value hwf hfit hb xs hxs n

/-- **C89** (partial). Under the same conditions the type derived for a layer is the same before, during and after
registration, whatever was registered in between. -/
theorem C89_types_history_independent_partial (off : Option ℤ) (ns : List ℕ) (n : ℕ) :
    ((registerAll off ns ⟨g, []⟩).2.graph.produced (n + 1) n).1 = (g.produced (n + 1) n).1 := by
  have hb := Between.registerAll hwf hfit off ns ⟨g, []⟩ (Between.refl g)
  obtain ⟨_, h1, -⟩ := Between.produced hwf hfit (n + 1) _ n hb (by omega)
  obtain ⟨_, h2, -⟩ := Between.produced hwf hfit (n + 1) _ n (Between.refl g) (by omega)
  rw [h1, h2]

/-- **C89** (partial). Under the same conditions the type derived for a layer, at any time, holds every value the layer
takes, at any time. -/
theorem C89_derived_types_hold_partial (off off' : Option ℤ) (ns ns' : List ℕ) (xs : ℕ → List ℚ)
    (hxs : ∀ n, infKif.HoldsAll (xs n)) (n : ℕ) (hn : n < g.length) :
    ∃ y, ((registerAll off ns ⟨g, []⟩).2.graph.eval xs)[n]? = some y ∧
      ∀ v ∈ y, ((registerAll off' ns' ⟨g, []⟩).2.graph.produced (n + 1) n).1.Holds v := by
  refine ⟨g.value xs n, ?_, ?_⟩
  · rw [C89_registration_keeps_function_partial hwf hfit off ns xs hxs]
    unfold PGraph.value
    rw [getD_lt _ _ (by rw [g.eval_length]; exact hn)]
    exact List.getElem?_eq_getElem _
  · have hb := Between.registerAll hwf hfit off' ns' ⟨g, []⟩ (Between.refl g)
    obtain ⟨_, h1, -⟩ := Between.produced hwf hfit (n + 1) _ n hb (by omega)
    rw [h1]
    exact PGraph.values_hold hwf hfit xs hxs n

end

/-- A sufficient condition for a wrapping quantizer, heterogeneous or not: the upstream type has its sign and more integer
bits than it keeps. -/
theorem FPQ.fits_of_wide (q : FPQ) (inp : KIF) (hel : ∀ e ∈ q.elems, (e.keepNegative = 0 ∨ e.keepNegative = 1) ∧ 0 ≤ e.bits)
    (hS : q.sat = .WRAP) (hk : q.kif.k ≤ inp.k) (hi : q.kif.i < inp.i) (hw : 0 ≤ q.kif.k + q.kif.i + inp.f) : q.Fits inp := by
  refine ⟨hel, .inr (.inl ⟨hS, ?_, ?_, hw⟩)⟩
  · rw [q.produced_fst]; exact min_eq_right hk
  · rw [q.produced_fst]; simp only [retI]; rw [if_neg (by omega), min_eq_right hi.le]

/-! ### Concrete models -/

/-- input, heterogeneous quantizer on two positions, dense layer with bias, quantizer, ReLU, quantizer -/
def demoGraph : PGraph :=
  [(.input, []),
   (.quant ⟨[⟨1, 6, 4⟩, ⟨1, 5, 3⟩], .RND, .WRAP⟩ [2] [2], [0]),
   (.linear [1 / 2, -3 / 4] [1 / 4] 1 1 (fun _ => [(0, 0), (1, 1)]) (fun _ => 0), [1]),
   (.quant ⟨[⟨1, 12, 5⟩], .TRN, .WRAP⟩ [1] [1], [2]),
   (.act false .other fun x => max x 0, [3]),
   (.quant ⟨[⟨0, 8, 3⟩], .RND, .WRAP⟩ [1] [1], [4])]

theorem demo_wf : demoGraph.WF := by
  intro n m hm
  rcases n with _ | _ | _ | _ | _ | _ | n
  · simp [demoGraph, PGraph.ins] at hm
  all_goals first
    | (simp [demoGraph, PGraph.ins] at hm; done)
    | (simp [demoGraph, PGraph.ins] at hm; omega)

theorem demo_types : demoGraph.types = [⟨1, 65535, 65535⟩, ⟨1, 3, 2⟩, ⟨1, 4, 4⟩, ⟨1, 4, 4⟩, ⟨0, 4, 4⟩, ⟨0, 3, 4⟩] := by
  decide +kernel

theorem demo_fits : demoGraph.Fits := by
  intro n l hl
  have ht : demoGraph.inTypes n = (demoGraph.ins n).map
    (([⟨1, 65535, 65535⟩, ⟨1, 3, 2⟩, ⟨1, 4, 4⟩, ⟨1, 4, 4⟩, ⟨0, 4, 4⟩, ⟨0, 3, 4⟩] : List KIF).getD · infKif) := by
    rw [← demo_types]; rfl
  rw [ht]
  rcases n with _ | _ | _ | _ | _ | _ | n
  · obtain rfl : PLay.input = l := by simpa [demoGraph, PGraph.lay] using hl
    trivial
  · simp [demoGraph, PGraph.lay] at hl; subst hl
    refine ⟨by decide, rfl, ?_, .inl ?_⟩
    · decide
    · decide +kernel
  · obtain rfl := Option.some.inj
      (show some (PLay.linear [1 / 2, -3 / 4] [1 / 4] 1 1 (fun _ => [(0, 0), (1, 1)]) (fun _ => 0)) = some l from hl)
    have e : linearKif ⟨1, 3, 2⟩ [1 / 2, -3 / 4] [1 / 4] 1 = ⟨1, 4, 4⟩ := by decide +kernel
    have hg : ∀ w ∈ ([1 / 2, -3 / 4] : List ℚ), ∃ m : ℤ, w = m * (2 : ℚ) ^ (-32 : ℤ) := by
      intro w hw
      simp only [List.mem_cons, List.not_mem_nil, or_false] at hw
      rcases hw with rfl | rfl
      · exact ⟨2 ^ 31, by norm_num⟩
      · exact ⟨-3 * 2 ^ 30, by norm_num⟩
    have hb : ∀ b ∈ ([1 / 4] : List ℚ), ∃ m : ℤ, b = m * (2 : ℚ) ^ (-(linearKif ⟨1, 3, 2⟩ [1 / 2, -3 / 4] [1 / 4] 1).f) := by
      intro b hb
      simp only [List.mem_cons, List.not_mem_nil, or_false] at hb
      rw [hb, e]
      exact ⟨4, by norm_num⟩
    refine ⟨hg, hb, fun p _ => ⟨?_, ?_⟩⟩
    · intro t ht
      simp only [List.mem_cons, List.not_mem_nil, or_false] at ht
      rcases ht with rfl | rfl <;> decide
    · show (⟨1, 3, 2⟩ : KIF).mag * (([(0, 0), (1, 1)] : List (ℕ × ℕ)).map fun t => |at0 [1 / 2, -3 / 4] t.2|).sum +
        |at0 [1 / 4] 0| < (2 : ℚ) ^ (linearKif ⟨1, 3, 2⟩ [1 / 2, -3 / 4] [1 / 4] 1).i
      decide +kernel
  · simp [demoGraph, PGraph.lay] at hl; subst hl
    refine ⟨by decide, rfl, by decide, .inr (.inl ⟨rfl, ?_, ?_, ?_⟩)⟩ <;> decide +kernel
  · simp [demoGraph, PGraph.lay] at hl; subst hl
    refine ⟨by simp [demoGraph, PGraph.ins], by decide +kernel, ?_⟩
    intro x hx
    have hg : ∃ n : ℤ, x = n * (2 : ℚ) ^ (-32 : ℤ) := by
      rcases hx with ⟨⟨n, hn⟩, -, -⟩ | rfl | rfl
      · change x = n * (2 : ℚ) ^ (-4 : ℤ) at hn
        exact ⟨n * 2 ^ 28, by rw [hn]; push_cast; rw [mul_assoc]; norm_num⟩
      · exact ⟨0, by norm_num⟩
      · exact ⟨2 ^ 32, by norm_num⟩
    rcases max_choice x 0 with e | e <;> simp only [e]
    · exact hg
    · exact ⟨0, by norm_num⟩
  · simp [demoGraph, PGraph.lay] at hl; subst hl
    refine ⟨by decide, rfl, by decide, .inr (.inl ⟨rfl, ?_, ?_, ?_⟩)⟩ <;> decide +kernel
  · simp [demoGraph, PGraph.lay] at hl

-- the model meets the hypotheses of the theorems above, registration succeeds, shrinks a quantizer and is not trivial
example : (registerAll none [0, 1, 2, 3, 4, 5] ⟨demoGraph, []⟩).1 = .ok () := by decide +kernel
example : (registerAll none [0, 1, 2, 3, 4, 5] ⟨demoGraph, []⟩).2.graph.eval (fun _ => [5 / 2, -9 / 4]) =
    demoGraph.eval (fun _ => [5 / 2, -9 / 4]) :=
  C89_registration_keeps_function_partial demo_wf demo_fits none _ _ fun _ v hv => by
    have h : infKif.holdsB (5 / 2) = true ∧ infKif.holdsB (-9 / 4) = true := by decide +kernel
    simp at hv
    rcases hv with rfl | rfl
    · exact KIF.holds_of_holdsB h.1
    · exact KIF.holds_of_holdsB h.2

/-- an unsigned quantizer, then a truncating signed one with as many integer bits -/
def exactGraph : PGraph :=
  [(.input, []),
   (.quant ⟨[⟨0, 6, 3⟩], .RND, .WRAP⟩ [1] [1], [0]),
   (.quant ⟨[⟨1, 5, 4⟩], .TRN, .WRAP⟩ [1] [1], [1])]

theorem exact_wf : exactGraph.WF := by
  intro n m hm
  rcases n with _ | _ | _ | n
  · simp [exactGraph, PGraph.ins] at hm
  all_goals first
    | (simp [exactGraph, PGraph.ins] at hm; done)
    | (simp [exactGraph, PGraph.ins] at hm; omega)

theorem exact_fits : exactGraph.Fits := by
  intro n l hl
  have ht : exactGraph.inTypes n = (exactGraph.ins n).map
    (([⟨1, 65535, 65535⟩, ⟨0, 3, 3⟩, ⟨0, 4, 1⟩] : List KIF).getD · infKif) := by
    rw [show ([⟨1, 65535, 65535⟩, ⟨0, 3, 3⟩, ⟨0, 4, 1⟩] : List KIF) = exactGraph.types by decide +kernel]; rfl
  rw [ht]
  rcases n with _ | _ | _ | n
  · obtain rfl : PLay.input = l := by simpa [exactGraph, PGraph.lay] using hl
    trivial
  · simp [exactGraph, PGraph.lay] at hl; subst hl
    refine ⟨by decide, rfl, by decide, .inl ?_⟩
    decide +kernel
  · simp [exactGraph, PGraph.lay] at hl; subst hl
    refine ⟨by decide, rfl, by decide, .inr (.inr (.inr (.inr (.inr ⟨?_, ?_, ?_, ?_, .inl ⟨rfl, ?_⟩⟩))))⟩
    pick_goal 5
    · unfold WrapKeeps; decide +kernel
    all_goals decide +kernel
  · simp [exactGraph, PGraph.lay] at hl

-- registration shrinks the second quantizer, to an unsigned one with one more integer bit, and keeps the function
example : (registerAll none [0, 1, 2] ⟨exactGraph, []⟩).2.graph.eval (fun _ => [61 / 8]) = [[61 / 8], [61 / 8], [15 / 2]] ∧
    (registerAll none [0, 1, 2] ⟨exactGraph, []⟩).2.graph.eval (fun _ => [61 / 8]) = exactGraph.eval (fun _ => [61 / 8]) :=
  ⟨by decide +kernel, C89_registration_keeps_function_partial exact_wf exact_fits none _ _ fun _ v hv => by
    have h : infKif.holdsB (61 / 8) = true := by decide +kernel
    simp at hv
    rw [hv]
    exact KIF.holds_of_holdsB h⟩

/-- integer inputs, a dense layer with kernel 1, and a saturating quantizer with two fractional bits
(`to_proxy_model(..., aggressive=False)`) -/
def satGraph : PGraph :=
  [(.input, []),
   (.quant ⟨[⟨1, 6, 6⟩], .TRN, .SAT⟩ [1] [1], [0]),
   (.linear [1] [] 1 1 (fun _ => [(0, 0)]) (fun _ => 0), [1]),
   (.quant ⟨[⟨1, 6, 4⟩], .TRN, .SAT⟩ [1] [1], [2])]

/-- C89 fails in general: registering the precisions of a saturating model succeeds and changes its output. On input 12 the
model gives `31/4` before and `7` after. -/
theorem C89_registration_changes_output : ∃ (g : PGraph) (xs : ℕ → List ℚ), g.WF ∧
    (registerAll none (List.range g.length) ⟨g, []⟩).1 = .ok () ∧ (g.eval xs)[3]? = some [31 / 4] ∧
    ((registerAll none (List.range g.length) ⟨g, []⟩).2.graph.eval xs)[3]? = some [7] := by
  refine ⟨satGraph, fun _ => [12], ?_, by decide +kernel, by decide +kernel, by decide +kernel⟩
  intro n m hm
  rcases n with _ | _ | _ | _ | n
  · simp [satGraph, PGraph.ins] at hm
  all_goals (simp [satGraph, PGraph.ins] at hm; try omega)

end HGQ
