import Verif.Model.Config
import Mathlib.Order.Defs.LinearOrder
import Mathlib.Order.Nat

/-! Helper lemmas for `Verif/Props/Config.lean`. -/

namespace HGQ.Config

theorem dict_alloc {σ : State} {d : Dict} {a : ℕ} (h : a < σ.heap.length) : (σ.alloc d).dict a = σ.dict a := by
  simp [State.dict, State.alloc, List.getD_eq_getElem?_getD, List.getElem?_append_left h]

theorem dict_alloc_new (σ : State) (d : Dict) : (σ.alloc d).dict σ.heap.length = d := by
  simp [State.dict, State.alloc, List.getD_eq_getElem?_getD]

theorem dict_set_ne {h : List Dict} {a b : ℕ} {d : Dict} (hne : b ≠ a) : (h.set a d).getD b [] = h.getD b [] := by
  simp [List.getD_eq_getElem?_getD, List.getElem?_set, Ne.symm hne]

theorem dict_set_self {h : List Dict} {a : ℕ} {d : Dict} (hl : a < h.length) : (h.set a d).getD a [] = d := by
  simp [List.getD_eq_getElem?_getD, List.getElem?_set, hl]

/-- everything a program can name is a dict made by the program -/
structure Inv (σ : State) : Prop where
  two : 2 ≤ σ.heap.length
  kqd : σ.kqDef < σ.heap.length
  paqd : σ.paqDef < σ.heap.length
  vars : ∀ a ∈ σ.vars, 2 ≤ a ∧ a < σ.heap.length
  lays : ∀ L ∈ σ.layers, (2 ≤ L.kq ∧ L.kq < σ.heap.length) ∧ (2 ≤ L.paq ∧ L.paq < σ.heap.length)

theorem inv_init : Inv State.init :=
  ⟨by decide, by decide, by decide, by simp [State.init], by simp [State.init]⟩

theorem inv_alloc {σ : State} (h : Inv σ) (d : Dict) : Inv (σ.alloc d) where
  two := by simp [State.alloc]; have := h.two; omega
  kqd := by simp [State.alloc]; have := h.kqd; omega
  paqd := by simp [State.alloc]; have := h.paqd; omega
  vars := by intro a ha; have := h.vars a ha; simp [State.alloc]; omega
  lays := by intro L hL; have := h.lays L hL; simp [State.alloc]; omega

/-- what `confOr` gives -/
theorem confOr_spec {σ : State} (h : Inv σ) (conf : Option ℕ) (hc : ∀ a ∈ conf, 2 ≤ a ∧ a < σ.heap.length) {dflt : ℕ}
    (_hd : dflt < σ.heap.length) :
    let r := σ.confOr conf dflt
    Inv r.1 ∧ σ.heap.length ≤ r.1.heap.length ∧ (∀ a < σ.heap.length, r.1.dict a = σ.dict a) ∧ (2 ≤ r.2 ∧ r.2 < r.1.heap.length) ∧
      r.1.kqDef = σ.kqDef ∧ r.1.paqDef = σ.paqDef ∧ r.1.vars = σ.vars ∧ r.1.layers = σ.layers ∧
      (σ.heap.length ≤ r.2 ∨ conf = some r.2) ∧ (conf = none → r.2 = σ.heap.length ∧ r.1.dict r.2 = σ.dict dflt) := by
  have hnew : Inv (σ.alloc (σ.dict dflt)) ∧ σ.heap.length ≤ (σ.alloc (σ.dict dflt)).heap.length ∧
      (∀ a < σ.heap.length, (σ.alloc (σ.dict dflt)).dict a = σ.dict a) ∧
      (2 ≤ σ.heap.length ∧ σ.heap.length < (σ.alloc (σ.dict dflt)).heap.length) :=
    ⟨inv_alloc h _, by simp [State.alloc], fun a ha => dict_alloc ha, h.two, by simp [State.alloc]⟩
  obtain ⟨h1, h2, h3, h4⟩ := hnew
  unfold State.confOr
  cases conf with
  | none => exact ⟨h1, h2, h3, h4, rfl, rfl, rfl, rfl, .inl le_rfl, fun _ => ⟨rfl, dict_alloc_new _ _⟩⟩
  | some a =>
    dsimp only
    split
    · exact ⟨h1, h2, h3, h4, rfl, rfl, rfl, rfl, .inl le_rfl, fun hh => by simp at hh⟩
    · exact ⟨h, le_rfl, fun _ _ => rfl, hc a rfl, rfl, rfl, rfl, rfl, .inr rfl, fun hh => by simp at hh⟩

theorem preBuild_fields (σ : State) (L : LayerC) :
    (σ.preBuild L).heap.length = σ.heap.length ∧ (σ.preBuild L).kqDef = σ.kqDef ∧ (σ.preBuild L).paqDef = σ.paqDef ∧
      (σ.preBuild L).vars = σ.vars ∧ (σ.preBuild L).layers = σ.layers := by
  unfold State.preBuild
  split
  · split <;> simp
  · simp

theorem preBuild_dict {σ : State} {L : LayerC} {a : ℕ} (h : a ≠ L.paq) : (σ.preBuild L).dict a = σ.dict a := by
  unfold State.preBuild
  split
  · split
    · exact dict_set_ne h
    · rfl
  · rfl

theorem inv_preBuild {σ : State} (h : Inv σ) (L : LayerC) : Inv (σ.preBuild L) := by
  obtain ⟨h1, h2, h3, h4, h5⟩ := preBuild_fields σ L
  exact ⟨h1 ▸ h.two, by rw [h1, h2]; exact h.kqd, by rw [h1, h3]; exact h.paqd, by rw [h1, h4]; exact h.vars,
    by rw [h1, h5]; exact h.lays⟩

theorem build_fields (σ : State) (l : ℕ) :
    (σ.build l).1.heap.length = σ.heap.length ∧ (σ.build l).1.kqDef = σ.kqDef ∧ (σ.build l).1.paqDef = σ.paqDef ∧
      (σ.build l).1.vars = σ.vars := by
  unfold State.build
  split
  · simp
  · rename_i L _
    obtain ⟨h1, h2, h3, h4, _⟩ := preBuild_fields σ L
    split
    · simp
    · split
      · exact ⟨h1, h2, h3, h4⟩
      · exact ⟨h1, h2, h3, h4⟩

theorem build_dict {σ : State} {l : ℕ} {a : ℕ}
    (h : ∀ L, σ.layers[l]? = some L → a ≠ L.paq) : (σ.build l).1.dict a = σ.dict a := by
  unfold State.build
  split
  · rfl
  · rename_i L hL
    have := preBuild_dict (σ := σ) (L := L) (h L hL)
    split
    · rfl
    · split
      · exact this
      · exact this

theorem build_layers (σ : State) (l : ℕ) :
    (σ.build l).1.layers = σ.layers ∨
      ∃ L r, σ.layers[l]? = some L ∧ L.rnd = none ∧ (σ.preBuild L).roundingOf L = .ok r ∧
        (σ.build l).1.layers = σ.layers.set l { L with rnd := some r } := by
  unfold State.build
  split
  · exact .inl rfl
  · rename_i L hL
    split
    · exact .inl rfl
    · rename_i hn
      split
      · exact .inl (preBuild_fields σ L).2.2.2.2
      · rename_i r hr
        exact .inr ⟨L, r, hL, by simpa using hn, hr, rfl⟩

theorem inv_build {σ : State} (h : Inv σ) (l : ℕ) : Inv (σ.build l).1 := by
  obtain ⟨h1, h2, h3, h4⟩ := build_fields σ l
  refine ⟨h1 ▸ h.two, by rw [h1, h2]; exact h.kqd, by rw [h1, h3]; exact h.paqd, by rw [h1, h4]; exact h.vars, ?_⟩
  rw [h1]
  rcases build_layers σ l with h5 | ⟨L, r, hL, _, _, h5⟩
  · rw [h5]; exact h.lays
  · rw [h5]
    intro M hM
    rcases List.mem_or_eq_of_mem_set hM with hM | hM
    · exact h.lays M hM
    · subst hM
      exact h.lays L (List.mem_of_getElem? hL)

/-- the configuration given to a layer's constructor -/
theorem given_ok {σ : State} (h : Inv σ) (v : Option ℕ) : ∀ a ∈ v.bind (fun v => σ.vars[v]?), 2 ≤ a ∧ a < σ.heap.length := by
  intro a ha
  obtain ⟨w, _, hw⟩ := Option.mem_bind_iff.mp ha
  exact h.vars a (List.mem_of_getElem? hw)

/-- what the constructor of a layer does -/
theorem mkLayer_spec {σ : State} (h : Inv σ) (kind : Kind) (kq paq : Option ℕ) (hk cc : Bool) :
    ∃ k p, (σ.step (.mkLayer kind kq paq hk cc)).1.layers = σ.layers ++ [⟨kind, k, p, hk, cc, none⟩] ∧
      Inv (σ.step (.mkLayer kind kq paq hk cc)).1 ∧ (σ.step (.mkLayer kind kq paq hk cc)).1.vars = σ.vars ∧
      (σ.step (.mkLayer kind kq paq hk cc)).1.kqDef = σ.kqDef ∧ (σ.step (.mkLayer kind kq paq hk cc)).1.paqDef = σ.paqDef ∧
      σ.heap.length ≤ (σ.step (.mkLayer kind kq paq hk cc)).1.heap.length ∧
      (∀ a < σ.heap.length, (σ.step (.mkLayer kind kq paq hk cc)).1.dict a = σ.dict a) ∧
      (σ.heap.length ≤ k ∨ k ∈ σ.vars) ∧ (σ.heap.length ≤ p ∨ p ∈ σ.vars) ∧
      (kq = none → σ.heap.length ≤ k ∧ (σ.step (.mkLayer kind kq paq hk cc)).1.dict k = σ.dict σ.kqDef) ∧
      (paq = none → σ.heap.length ≤ p ∧ p ≠ k ∧ (σ.step (.mkLayer kind kq paq hk cc)).1.dict p = σ.dict σ.paqDef) := by
  obtain ⟨i1, l1, d1, b1, e1, f1, v1, y1, o1, n1⟩ := confOr_spec h (kq.bind fun v => σ.vars[v]?) (given_ok h kq) h.kqd
  have hgp := given_ok h paq
  obtain ⟨i2, l2, d2, b2, e2, f2, v2, y2, o2, n2⟩ := confOr_spec i1 (paq.bind fun v => σ.vars[v]?)
    (fun a ha => ⟨(hgp a ha).1, lt_of_lt_of_le (hgp a ha).2 l1⟩) (dflt := σ.paqDef) (lt_of_lt_of_le h.paqd l1)
  refine ⟨_, _, rfl, ⟨i2.two, i2.kqd, i2.paqd, i2.vars, ?_⟩, ?_, ?_, ?_, ?_, ?_, ?_, ?_, ?_, ?_⟩
  · intro L hL
    rcases List.mem_append.mp hL with hL | hL
    · have := h.lays L hL
      have l3 := l1.trans l2
      change (2 ≤ L.kq ∧ L.kq < List.length _) ∧ (2 ≤ L.paq ∧ L.paq < List.length _)
      exact ⟨⟨this.1.1, lt_of_lt_of_le this.1.2 l3⟩, ⟨this.2.1, lt_of_lt_of_le this.2.2 l3⟩⟩
    · rw [List.mem_singleton.mp hL]
      exact ⟨⟨b1.1, lt_of_lt_of_le b1.2 l2⟩, b2⟩
  · exact v2.trans v1
  · exact e2.trans e1
  · exact f2.trans f1
  · exact l1.trans l2
  · intro a ha
    exact (d2 a (lt_of_lt_of_le ha l1)).trans (d1 a ha)
  · rcases o1 with o | o
    · exact .inl o
    · obtain ⟨w, _, hw⟩ := Option.bind_eq_some_iff.mp o
      exact .inr (List.mem_of_getElem? hw)
  · rcases o2 with o | o
    · exact .inl (l1.trans o)
    · obtain ⟨w, _, hw⟩ := Option.bind_eq_some_iff.mp o
      exact .inr (List.mem_of_getElem? hw)
  · rintro rfl
    obtain ⟨ha, hb⟩ := n1 rfl
    exact ⟨ha.ge, (d2 _ b1.2).trans hb⟩
  · rintro rfl
    obtain ⟨ha, hb⟩ := n2 rfl
    refine ⟨l1.trans ha.ge, ?_, hb.trans (d1 _ h.paqd)⟩
    rw [ha]
    exact b1.2.ne'

theorem inv_step {σ : State} (h : Inv σ) (op : Op) : Inv (σ.step op).1 := by
  have hlit : ∀ d, Inv { σ.alloc d with vars := σ.vars ++ [σ.heap.length] } := by
    intro d
    have := inv_alloc h d
    refine ⟨this.two, this.kqd, this.paqd, ?_, this.lays⟩
    intro a ha
    rcases List.mem_append.mp ha with ha | ha
    · exact this.vars a ha
    · rw [List.mem_singleton.mp ha]
      exact ⟨h.two, by simp [State.alloc]⟩
  cases op with
  | literal d => exact hlit d
  | getKq => exact hlit _
  | getPaq => exact hlit _
  | setKq v =>
    unfold State.step
    dsimp only
    split
    · exact h
    · rename_i a ha
      split
      · exact ⟨h.two, (h.vars a (List.mem_of_getElem? ha)).2, h.paqd, h.vars, h.lays⟩
      · exact h
  | setPaq v =>
    unfold State.step
    dsimp only
    split
    · exact h
    · rename_i a ha
      split
      · exact ⟨h.two, h.kqd, (h.vars a (List.mem_of_getElem? ha)).2, h.vars, h.lays⟩
      · exact h
  | assign v k x =>
    unfold State.step
    dsimp only
    split
    · exact h
    · exact ⟨by simpa using h.two, by simpa using h.kqd, by simpa using h.paqd, by simpa using h.vars, by simpa using h.lays⟩
  | mkLayer kind kq paq hk cc => exact (mkLayer_spec h kind kq paq hk cc).choose_spec.choose_spec.2.1
  | readKq l =>
    unfold State.step
    dsimp only
    split
    · exact h
    · rename_i L hL
      refine ⟨h.two, h.kqd, h.paqd, ?_, h.lays⟩
      intro a ha
      rcases List.mem_append.mp ha with ha | ha
      · exact h.vars a ha
      · rw [List.mem_singleton.mp ha]; exact (h.lays L (List.mem_of_getElem? hL)).1
  | readPaq l =>
    unfold State.step
    dsimp only
    split
    · exact h
    · rename_i L hL
      refine ⟨h.two, h.kqd, h.paqd, ?_, h.lays⟩
      intro a ha
      rcases List.mem_append.mp ha with ha | ha
      · exact h.vars a ha
      · rw [List.mem_singleton.mp ha]; exact (h.lays L (List.mem_of_getElem? hL)).2
  | build l => exact inv_build h l

theorem inv_run {σ : State} (h : Inv σ) (ops : List Op) : Inv (σ.run ops) := by
  induction ops generalizing σ with
  | nil => exact h
  | cons op ops ih => exact ih (inv_step h op)

/-- a step changes at most the dict assigned to, or the dict of the `HActivation` built -/
theorem step_dict {σ : State} (h : Inv σ) {op : Op} {a : ℕ} (ha : a < σ.heap.length)
    (hassign : ∀ v k x, op = .assign v k x → σ.vars[v]? ≠ some a)
    (hbuild : ∀ l L, op = .build l → σ.layers[l]? = some L → L.paq ≠ a) : (σ.step op).1.dict a = σ.dict a := by
  cases op with
  | literal d => exact dict_alloc (d := d) ha
  | getKq => exact dict_alloc (d := σ.dict σ.kqDef) ha
  | getPaq => exact dict_alloc (d := σ.dict σ.paqDef) ha
  | setKq v => unfold State.step; dsimp only; split <;> [rfl; (split <;> rfl)]
  | setPaq v => unfold State.step; dsimp only; split <;> [rfl; (split <;> rfl)]
  | assign v k x =>
    have := hassign v k x rfl
    unfold State.step
    dsimp only
    split
    · rfl
    · rename_i b hb
      exact dict_set_ne fun e => this (by rw [hb, e])
  | mkLayer kind kq paq hk cc => exact (mkLayer_spec h kind kq paq hk cc).choose_spec.choose_spec.2.2.2.2.2.2.1 a ha
  | readKq l => unfold State.step; dsimp only; split <;> rfl
  | readPaq l => unfold State.step; dsimp only; split <;> rfl
  | build l => exact build_dict fun L hL => (hbuild l L rfl hL).symm

/-- the defaults set on import are never changed -/
theorem step_dict_init {σ : State} (h : Inv σ) (op : Op) {a : ℕ} (ha : a < 2) : (σ.step op).1.dict a = σ.dict a := by
  refine step_dict h (lt_of_lt_of_le ha h.two) ?_ ?_
  · intro v _ _ _ hv
    have := (h.vars a (List.mem_of_getElem? hv)).1
    omega
  · intro l L _ hL e
    have := (h.lays L (List.mem_of_getElem? hL)).2.1
    omega

/-- the heap grows -/
theorem step_length {σ : State} (h : Inv σ) (op : Op) : σ.heap.length ≤ (σ.step op).1.heap.length := by
  cases op with
  | literal d => simp [State.step, State.alloc]
  | getKq => simp [State.step, State.alloc]
  | getPaq => simp [State.step, State.alloc]
  | setKq v => unfold State.step; dsimp only; split <;> [exact le_rfl; (split <;> exact le_rfl)]
  | setPaq v => unfold State.step; dsimp only; split <;> [exact le_rfl; (split <;> exact le_rfl)]
  | assign v k x => unfold State.step; dsimp only; split <;> simp
  | mkLayer kind kq paq hk cc => exact (mkLayer_spec h kind kq paq hk cc).choose_spec.choose_spec.2.2.2.2.2.1
  | readKq l => unfold State.step; dsimp only; split <;> simp
  | readPaq l => unfold State.step; dsimp only; split <;> simp
  | build l => exact (build_fields σ l).1.ge

/-- a layer keeps everything but its rounding strategy, which is set by its own `build` only -/
theorem step_layer {σ : State} (h : Inv σ) (op : Op) {l : ℕ} {L : LayerC} (hL : σ.layers[l]? = some L) :
    (σ.step op).1.layers[l]? = some L ∨
      ∃ r, op = .build l ∧ L.rnd = none ∧ (σ.preBuild L).roundingOf L = .ok r ∧
        (σ.step op).1.layers[l]? = some { L with rnd := some r } := by
  have hl : l < σ.layers.length := (List.getElem?_eq_some_iff.mp hL).1
  cases op with
  | literal d => exact .inl hL
  | getKq => exact .inl hL
  | getPaq => exact .inl hL
  | setKq v => left; unfold State.step; dsimp only; split <;> [exact hL; (split <;> exact hL)]
  | setPaq v => left; unfold State.step; dsimp only; split <;> [exact hL; (split <;> exact hL)]
  | assign v k x => left; unfold State.step; dsimp only; split <;> exact hL
  | mkLayer kind kq paq hk cc =>
    left
    obtain ⟨k, p, hy, -⟩ := mkLayer_spec h kind kq paq hk cc
    rw [hy, List.getElem?_append_left hl, hL]
  | readKq m => left; unfold State.step; dsimp only; split <;> exact hL
  | readPaq m => left; unfold State.step; dsimp only; split <;> exact hL
  | build m =>
    rcases build_layers σ m with h5 | ⟨M, r, hM, hn, hr, h5⟩
    · left; change (σ.build m).1.layers[l]? = _; rw [h5, hL]
    · by_cases hml : m = l
      · subst hml
        right
        rw [hL] at hM
        obtain rfl := Option.some.inj hM
        refine ⟨r, rfl, hn, hr, ?_⟩
        change (σ.build m).1.layers[m]? = _
        rw [h5, List.getElem?_set_self hl]
      · left
        change (σ.build m).1.layers[l]? = _
        rw [h5, List.getElem?_set_ne hml, hL]

end HGQ.Config
