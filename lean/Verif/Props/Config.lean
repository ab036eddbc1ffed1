import Verif.Lemmas.Config

/-!
C53: default quantizer configurations are isolated. C54: the rounding strategy of a layer does not depend on the layers built before.

A program is any list of operations (`Op`): it makes dicts, reads and sets the defaults, assigns to dicts it holds, makes layers,
reads their configurations and builds them. `State.init` is the state after importing the library.
-/

namespace HGQ.Config

/-! ### Specification -/

/-- the content passed to the last successful `set_default_kq_conf`, as it was at the time of the call; `d` before any call -/
def lastSetKq (σ : State) (d : Dict) : List Op → Dict
  | [] => d
  | op :: ops => lastSetKq (σ.step op).1
      (match op, (σ.step op).2 with
        | .setKq v, .ok () => σ.dict (σ.vars.getD v 0)
        | _, _ => d) ops

/-- the content passed to the last successful `set_default_paq_conf`, as it was at the time of the call; `d` before any call -/
def lastSetPaq (σ : State) (d : Dict) : List Op → Dict
  | [] => d
  | op :: ops => lastSetPaq (σ.step op).1
      (match op, (σ.step op).2 with
        | .setPaq v, .ok () => σ.dict (σ.vars.getD v 0)
        | _, _ => d) ops

/-- the address of the dict passed to a set function -/
def passedBy (σ : State) : Op → List ℕ
  | .setKq v => σ.vars[v]?.toList
  | .setPaq v => σ.vars[v]?.toList
  | _ => []

/-- no step of the program changes the content of a dict (its address in `P`) passed to a set function before -/
def Untouched (σ : State) (P : List ℕ) : List Op → Prop
  | [] => True
  | op :: ops => (∀ a ∈ P, (σ.step op).1.dict a = σ.dict a) ∧ Untouched (σ.step op).1 (passedBy σ op ++ P) ops

/-- the rounding strategy (0: to nearest, 3: floor, ...) documented for a layer whose configuration says `v`: 'auto' is rounding to
nearest for an `HActivation` and where the bias can take the half unit, floor elsewhere -/
def documented (kind : Kind) (canCover : Bool) (v : Val) : Val :=
  match kind, canCover, v with
  | .activation, _, .str "auto" => .int 0
  | .other, true, .str "auto" => .int 0
  | .other, false, .str "auto" => .int 3
  | _, _, .str "standard_round" => .int 0
  | _, _, .str "stochastic_round" => .int 1
  | _, _, .str "fast_uniform_noise_injection" => .int 2
  | _, _, .str "floor" => .int 3
  | _, _, .str _ => .int (-1)
  | _, _, v => v

/-! ### C53 -/

theorem set_kq_cases (σ : State) (v : ℕ) :
    (∃ a, σ.vars[v]? = some a ∧ σ.step (.setKq v) = ({ σ with kqDef := a }, .ok ())) ∨ ∃ e, σ.step (.setKq v) = (σ, .error e) := by
  cases hv : σ.vars[v]? with
  | none => exact .inr ⟨"NameError", by simp [State.step, hv]⟩
  | some a =>
    by_cases hs : sameKeys (σ.dict a) (σ.dict σ.kqDef) = true
    · exact .inl ⟨a, rfl, by simp [State.step, hv, hs]⟩
    · exact .inr ⟨"AssertionError", by simp [State.step, hv, hs]⟩

theorem set_paq_cases (σ : State) (v : ℕ) :
    (∃ a, σ.vars[v]? = some a ∧ σ.step (.setPaq v) = ({ σ with paqDef := a }, .ok ())) ∨
      ∃ e, σ.step (.setPaq v) = (σ, .error e) := by
  cases hv : σ.vars[v]? with
  | none => exact .inr ⟨"NameError", by simp [State.step, hv]⟩
  | some a =>
    by_cases hs : sameKeys (σ.dict a) (σ.dict σ.paqDef) = true
    · exact .inl ⟨a, rfl, by simp [State.step, hv, hs]⟩
    · exact .inr ⟨"AssertionError", by simp [State.step, hv, hs]⟩

theorem step_defs {σ : State} (h : Inv σ) {op : Op} (hk : ∀ v, op ≠ .setKq v) (hp : ∀ v, op ≠ .setPaq v) :
    (σ.step op).1.kqDef = σ.kqDef ∧ (σ.step op).1.paqDef = σ.paqDef := by
  cases op with
  | literal d => exact ⟨rfl, rfl⟩
  | getKq => exact ⟨rfl, rfl⟩
  | getPaq => exact ⟨rfl, rfl⟩
  | setKq v => exact absurd rfl (hk v)
  | setPaq v => exact absurd rfl (hp v)
  | assign v k x => unfold State.step; dsimp only; split <;> exact ⟨rfl, rfl⟩
  | mkLayer kind kq paq hk' cc =>
    obtain ⟨k, p, -, -, -, h1, h2, -⟩ := mkLayer_spec h kind kq paq hk' cc
    exact ⟨h1, h2⟩
  | readKq l => unfold State.step; dsimp only; split <;> exact ⟨rfl, rfl⟩
  | readPaq l => unfold State.step; dsimp only; split <;> exact ⟨rfl, rfl⟩
  | build l => exact ⟨(build_fields σ l).2.1, (build_fields σ l).2.2.1⟩

theorem defaults_gen (ops : List Op) : ∀ {σ : State} {P : List ℕ} {dk dp : Dict}, Inv σ → Untouched σ P ops →
    (σ.kqDef < 2 ∨ σ.kqDef ∈ P) → (σ.paqDef < 2 ∨ σ.paqDef ∈ P) → σ.dict σ.kqDef = dk → σ.dict σ.paqDef = dp →
    (σ.run ops).dict (σ.run ops).kqDef = lastSetKq σ dk ops ∧ (σ.run ops).dict (σ.run ops).paqDef = lastSetPaq σ dp ops := by
  induction ops with
  | nil => intro σ P dk dp _ _ _ _ h1 h2; exact ⟨h1, h2⟩
  | cons op ops ih =>
    intro σ P dk dp h hu hkP hpP hdk hdp
    obtain ⟨hstep, hu⟩ := hu
    have keep : ∀ a, a < 2 ∨ a ∈ P → (σ.step op).1.dict a = σ.dict a := by
      rintro a (ha | ha)
      · exact step_dict_init h op ha
      · exact hstep a ha
    have old : ∀ a, a < 2 ∨ a ∈ P → a < 2 ∨ a ∈ passedBy σ op ++ P := fun a ha => ha.imp_right (List.mem_append_right _)
    by_cases hk : ∃ v, op = .setKq v
    · obtain ⟨v, rfl⟩ := hk
      rcases set_kq_cases σ v with ⟨a, hv, hs⟩ | ⟨e, hs⟩
      · refine ih (σ := (σ.step _).1) (inv_step h _) hu ?_ ?_ ?_ ?_
        · rw [hs]; right; simp [passedBy, hv]
        · rw [hs]; exact old _ hpP
        · rw [hs]; simp only [List.getD_eq_getElem?_getD, hv, Option.getD_some]; rfl
        · rw [hs]; exact hdp
      · refine ih (σ := (σ.step _).1) (inv_step h _) hu ?_ ?_ ?_ ?_
        · rw [hs]; exact old _ hkP
        · rw [hs]; exact old _ hpP
        · rw [hs]; exact hdk
        · rw [hs]; exact hdp
    · by_cases hp : ∃ v, op = .setPaq v
      · obtain ⟨v, rfl⟩ := hp
        rcases set_paq_cases σ v with ⟨a, hv, hs⟩ | ⟨e, hs⟩
        · refine ih (σ := (σ.step _).1) (inv_step h _) hu ?_ ?_ ?_ ?_
          · rw [hs]; exact old _ hkP
          · rw [hs]; right; simp [passedBy, hv]
          · rw [hs]; exact hdk
          · rw [hs]; simp only [List.getD_eq_getElem?_getD, hv, Option.getD_some]; rfl
        · refine ih (σ := (σ.step _).1) (inv_step h _) hu ?_ ?_ ?_ ?_
          · rw [hs]; exact old _ hkP
          · rw [hs]; exact old _ hpP
          · rw [hs]; exact hdk
          · rw [hs]; exact hdp
      · push Not at hk hp
        obtain ⟨e1, e2⟩ := step_defs h hk hp
        refine ih (σ := (σ.step _).1) (inv_step h _) hu ?_ ?_ ?_ ?_
        · rw [e1]; exact old _ hkP
        · rw [e2]; exact old _ hpP
        · rw [e1, keep _ hkP, hdk]
          split
          · exact absurd rfl (hk _)
          · rfl
        · rw [e2, keep _ hpP, hdp]
          split
          · exact absurd rfl (hp _)
          · rfl

/-- C53, for programs that do not change a dict after passing it to a set function: after every history the defaults are what was
passed to the last successful `set_default_*_conf`, as it was then, and what the library came with before any such call. Missing:
programs that change the dict later; the code keeps a reference, see `C53_set_keeps_reference`. -/
theorem C53_defaults_partial (ops : List Op) (h : Untouched .init [] ops) :
    (State.init.run ops).dict (State.init.run ops).kqDef = lastSetKq .init kqInit ops ∧
      (State.init.run ops).dict (State.init.run ops).paqDef = lastSetPaq .init paqInit ops :=
  defaults_gen ops inv_init h (.inl (by decide)) (.inl (by decide)) rfl rfl

/-- C53, the whole of the first half: in a program that never calls `set_default_*_conf`, whatever it does to dicts obtained from
`get_default_*_conf`, to its own dicts and to the configurations of its layers, and whatever layers it builds, the defaults stay
what the library came with -/
theorem C53_get_isolated (ops : List Op) (hk : ∀ v, Op.setKq v ∉ ops) (hp : ∀ v, Op.setPaq v ∉ ops) :
    (State.init.run ops).dict (State.init.run ops).kqDef = kqInit ∧
      (State.init.run ops).dict (State.init.run ops).paqDef = paqInit := by
  have gen : ∀ (ops : List Op) (σ : State), (∀ v, Op.setKq v ∉ ops) → (∀ v, Op.setPaq v ∉ ops) →
      Untouched σ [] ops ∧ (∀ d, lastSetKq σ d ops = d) ∧ ∀ d, lastSetPaq σ d ops = d := by
    intro ops
    induction ops with
    | nil => intro σ _ _; exact ⟨trivial, fun _ => rfl, fun _ => rfl⟩
    | cons op ops ih =>
      intro σ hk hp
      obtain ⟨i1, i2, i3⟩ := ih (σ.step op).1 (fun v hv => hk v (.tail _ hv)) (fun v hv => hp v (.tail _ hv))
      have e : passedBy σ op = [] := by
        cases op with
        | setKq v => exact absurd (.head _) (hk v)
        | setPaq v => exact absurd (.head _) (hp v)
        | _ => rfl
      refine ⟨⟨by simp, by rw [e]; exact i1⟩, fun d => ?_, fun d => ?_⟩
      · unfold lastSetKq
        rw [i2]
        split
        · exact absurd (.head _) (hk _)
        · rfl
      · unfold lastSetPaq
        rw [i3]
        split
        · exact absurd (.head _) (hp _)
        · rfl
  obtain ⟨g1, g2, g3⟩ := gen ops .init hk hp
  have := C53_defaults_partial ops g1
  rwa [g2, g3] at this

/-- C53: what `get_default_*_conf` returns is a new dict with the content of the default: no variable, no layer and no default
refers to it -/
theorem C53_get_fresh (ops : List Op) :
    let σ := State.init.run ops
    (∃ a, (σ.step .getKq).1.vars = σ.vars ++ [a] ∧ (σ.step .getKq).1.dict a = σ.dict σ.kqDef ∧
      a ∉ σ.vars ∧ a ≠ σ.kqDef ∧ a ≠ σ.paqDef ∧ ∀ L ∈ σ.layers, a ≠ L.kq ∧ a ≠ L.paq) ∧
    (∃ a, (σ.step .getPaq).1.vars = σ.vars ++ [a] ∧ (σ.step .getPaq).1.dict a = σ.dict σ.paqDef ∧
      a ∉ σ.vars ∧ a ≠ σ.kqDef ∧ a ≠ σ.paqDef ∧ ∀ L ∈ σ.layers, a ≠ L.kq ∧ a ≠ L.paq) := by
  intro σ
  have h : Inv σ := inv_run inv_init ops
  have fresh : σ.heap.length ∉ σ.vars ∧ σ.heap.length ≠ σ.kqDef ∧ σ.heap.length ≠ σ.paqDef ∧
      ∀ L ∈ σ.layers, σ.heap.length ≠ L.kq ∧ σ.heap.length ≠ L.paq :=
    ⟨fun hm => (lt_irrefl _ (h.vars _ hm).2), h.kqd.ne', h.paqd.ne',
      fun L hL => ⟨(h.lays L hL).1.2.ne', (h.lays L hL).2.2.ne'⟩⟩
  exact ⟨⟨_, rfl, dict_alloc_new σ (σ.dict σ.kqDef), fresh⟩, ⟨_, rfl, dict_alloc_new σ (σ.dict σ.paqDef), fresh⟩⟩

/-- C53: a layer made without configurations gets two new dicts with the content of the defaults, referred to by nothing else -/
theorem C53_layer_gets_copies (ops : List Op) (kind : Kind) (hk cc : Bool) :
    let σ := State.init.run ops
    ∃ k p, (σ.step (.mkLayer kind none none hk cc)).1.layers = σ.layers ++ [⟨kind, k, p, hk, cc, none⟩] ∧
      (σ.step (.mkLayer kind none none hk cc)).1.dict k = σ.dict σ.kqDef ∧
      (σ.step (.mkLayer kind none none hk cc)).1.dict p = σ.dict σ.paqDef ∧ k ≠ p ∧
      ∀ a ∈ [k, p], a ∉ σ.vars ∧ a ≠ σ.kqDef ∧ a ≠ σ.paqDef ∧ ∀ L ∈ σ.layers, a ≠ L.kq ∧ a ≠ L.paq := by
  intro σ
  have h : Inv σ := inv_run inv_init ops
  obtain ⟨k, p, hy, -, -, -, -, -, -, -, -, h1, h2⟩ := mkLayer_spec h kind none none hk cc
  obtain ⟨h1, h1'⟩ := h1 rfl
  obtain ⟨h2, h2', h2''⟩ := h2 rfl
  refine ⟨k, p, hy, h1', h2'', h2'.symm, ?_⟩
  have fresh : ∀ a, σ.heap.length ≤ a → a ∉ σ.vars ∧ a ≠ σ.kqDef ∧ a ≠ σ.paqDef ∧ ∀ L ∈ σ.layers, a ≠ L.kq ∧ a ≠ L.paq :=
    fun a ha => ⟨fun hm => absurd (h.vars _ hm).2 (by omega), (lt_of_lt_of_le h.kqd ha).ne', (lt_of_lt_of_le h.paqd ha).ne',
      fun L hL => ⟨(lt_of_lt_of_le (h.lays L hL).1.2 ha).ne', (lt_of_lt_of_le (h.lays L hL).2.2 ha).ne'⟩⟩
  intro a ha
  simp only [List.mem_cons, List.not_mem_nil, or_false] at ha
  rcases ha with rfl | rfl
  · exact fresh _ h1
  · exact fresh _ h2

/-- C53: a dict whose keys are not those of the current default is refused, and nothing changes -/
theorem C53_wrong_keys (σ : State) (v a : ℕ) (hv : σ.vars[v]? = some a) (key : String)
    (hkey : ¬ (key ∈ (σ.dict a).map Prod.fst ↔ key ∈ (σ.dict σ.kqDef).map Prod.fst)) :
    σ.step (.setKq v) = (σ, .error "AssertionError") := by
  have : sameKeys (σ.dict a) (σ.dict σ.kqDef) = false := by
    by_contra hc
    simp only [Bool.not_eq_false, sameKeys, Bool.and_eq_true, List.all_eq_true, decide_eq_true_eq] at hc
    exact hkey ⟨fun h => hc.1 key h, fun h => hc.2 key h⟩
  simp [State.step, hv, this]

/-- C53: the same for `set_default_paq_conf` -/
theorem C53_wrong_keys_paq (σ : State) (v a : ℕ) (hv : σ.vars[v]? = some a) (key : String)
    (hkey : ¬ (key ∈ (σ.dict a).map Prod.fst ↔ key ∈ (σ.dict σ.paqDef).map Prod.fst)) :
    σ.step (.setPaq v) = (σ, .error "AssertionError") := by
  have : sameKeys (σ.dict a) (σ.dict σ.paqDef) = false := by
    by_contra hc
    simp only [Bool.not_eq_false, sameKeys, Bool.and_eq_true, List.all_eq_true, decide_eq_true_eq] at hc
    exact hkey ⟨fun h => hc.1 key h, fun h => hc.2 key h⟩
  simp [State.step, hv, this]

/-- C53: a dict with the keys of the current default is accepted; it is then what a new layer copies, and the other default, all
dicts, layers and variables stay -/
theorem C53_set_accepted (σ : State) (v a : ℕ) (hv : σ.vars[v]? = some a) :
    ((∀ key, key ∈ (σ.dict a).map Prod.fst ↔ key ∈ (σ.dict σ.kqDef).map Prod.fst) →
      (σ.step (.setKq v)).2 = .ok () ∧ (σ.step (.setKq v)).1.dict (σ.step (.setKq v)).1.kqDef = σ.dict a ∧
        (σ.step (.setKq v)).1.paqDef = σ.paqDef ∧ (σ.step (.setKq v)).1.heap = σ.heap ∧
        (σ.step (.setKq v)).1.layers = σ.layers ∧ (σ.step (.setKq v)).1.vars = σ.vars) ∧
    ((∀ key, key ∈ (σ.dict a).map Prod.fst ↔ key ∈ (σ.dict σ.paqDef).map Prod.fst) →
      (σ.step (.setPaq v)).2 = .ok () ∧ (σ.step (.setPaq v)).1.dict (σ.step (.setPaq v)).1.paqDef = σ.dict a ∧
        (σ.step (.setPaq v)).1.kqDef = σ.kqDef ∧ (σ.step (.setPaq v)).1.heap = σ.heap ∧
        (σ.step (.setPaq v)).1.layers = σ.layers ∧ (σ.step (.setPaq v)).1.vars = σ.vars) := by
  constructor
  · intro hkey
    have : sameKeys (σ.dict a) (σ.dict σ.kqDef) = true := by
      simp only [sameKeys, Bool.and_eq_true, List.all_eq_true, decide_eq_true_eq]
      exact ⟨fun k h => (hkey k).1 h, fun k h => (hkey k).2 h⟩
    have e : σ.step (.setKq v) = ({ σ with kqDef := a }, .ok ()) := by simp [State.step, hv, this]
    rw [e]
    exact ⟨rfl, rfl, rfl, rfl, rfl, rfl⟩
  · intro hkey
    have : sameKeys (σ.dict a) (σ.dict σ.paqDef) = true := by
      simp only [sameKeys, Bool.and_eq_true, List.all_eq_true, decide_eq_true_eq]
      exact ⟨fun k h => (hkey k).1 h, fun k h => (hkey k).2 h⟩
    have e : σ.step (.setPaq v) = ({ σ with paqDef := a }, .ok ()) := by simp [State.step, hv, this]
    rw [e]
    exact ⟨rfl, rfl, rfl, rfl, rfl, rfl⟩

/-- the program of the counterexample: `c = get_default_kq_conf(); set_default_kq_conf(c); c['init_bw'] = 7` -/
def exAlias : List Op := [.getKq, .setKq 0, .assign 0 "init_bw" (.int 7)]

/-- the code violates C53: the set function keeps a reference to the dict passed, so that a later change of the dict changes the
defaults. The configuration passed had `init_bw = 2`; a layer made at the end has `init_bw = 7`. -/
theorem C53_set_keeps_reference :
    (lastSetKq .init kqInit exAlias).get "init_bw" = some (.int 2) ∧
      ((State.init.run exAlias).dict (State.init.run exAlias).kqDef).get "init_bw" = some (.int 7) ∧
      (((State.init.run (exAlias ++ [.mkLayer .other none none true true])).dict 3).get "init_bw" = some (.int 7)) := by
  decide +kernel

/-- the same through the library itself: building an `HActivation` that holds the dict passed changes the defaults -/
theorem C53_build_changes_defaults :
    let ops : List Op := [.getPaq, .assign 0 "rnd_strategy" (.str "auto"), .setPaq 0, .mkLayer .activation none (some 0) false false,
      .build 0]
    (lastSetPaq .init paqInit ops).get "rnd_strategy" = some (.str "auto") ∧
      ((State.init.run ops).dict (State.init.run ops).paqDef).get "rnd_strategy" = some (.str "standard_round") := by
  decide +kernel

/-- the hypothesis of `C53_defaults_partial` holds of a program that changes dicts before passing them and other dicts after, and
its defaults are then not the initial ones -/
example : let ops : List Op := [.getKq, .assign 0 "init_bw" (.int 5), .setKq 0, .getKq, .assign 1 "init_bw" (.int 9),
      .mkLayer .other none none true true, .readKq 0, .assign 2 "init_bw" (.int 1)]
    Untouched .init [] ops ∧ (lastSetKq .init kqInit ops).get "init_bw" = some (.int 5) := by
  refine ⟨?_, by decide +kernel⟩
  simp only [Untouched]
  decide +kernel

/-! ### C54 -/

/-- no step of the program assigns to the dict at address `a` -/
def NoAssign (a : ℕ) (σ : State) : List Op → Prop
  | [] => True
  | op :: ops => (∀ v k x, op = .assign v k x → σ.vars[v]? ≠ some a) ∧ NoAssign a (σ.step op).1 ops

theorem get_set_self (d : Dict) (k : String) (v : Val) (h : (d.get k).isSome) : (d.set k v).get k = some v := by
  induction d with
  | nil => simp [Dict.get] at h
  | cons e d ih =>
    have hk : k ∈ Dict.keys (e :: d) := by
      by_contra hc
      simp only [Dict.keys, List.mem_map, not_exists, not_and] at hc
      simp only [Dict.get, Option.isSome_map, List.find?_isSome] at h
      obtain ⟨x, hx, hx'⟩ := h
      exact hc x hx (by simpa using hx')
    unfold Dict.set
    rw [if_pos hk]
    by_cases he : e.1 = k
    · simp [Dict.get, he]
    · have h' : (Dict.get d k).isSome := by simpa [Dict.get, List.find?_cons, he] using h
      have hk' : k ∈ Dict.keys d := by
        simp only [Dict.keys, List.map_cons, List.mem_cons] at hk
        rcases hk with hk | hk
        · exact absurd hk.symm he
        · exact hk
      have := ih h'
      unfold Dict.set at this
      rw [if_pos hk'] at this
      simpa [Dict.get, List.find?_cons, he] using this

theorem preBuild_get {σ : State} {L : LayerC} (hl : L.paq < σ.heap.length) :
    ((σ.preBuild L).dict L.paq).get "rnd_strategy" =
      if L.kind = .activation ∧ (σ.dict L.paq).get "rnd_strategy" = some (.str "auto") then some (.str "standard_round")
      else (σ.dict L.paq).get "rnd_strategy" := by
  unfold State.preBuild
  split
  · rename_i hk
    split
    · rename_i ha
      rw [if_pos ⟨hk, ha⟩]
      change (Dict.get ((σ.heap.set _ _).getD _ []) _) = _
      rw [dict_set_self hl]
      exact get_set_self _ _ _ (by rw [ha]; rfl)
    · rename_i ha
      rw [if_neg (fun hc => ha hc.2)]
  · rename_i hk
    rw [if_neg (fun hc => by rw [hk] at hc; exact absurd hc.1 (by decide))]

theorem roundingOf_ok {σ : State} {L : LayerC} {r : Val} (h : σ.roundingOf L = .ok r) :
    ∃ v, (σ.dict L.paq).get "rnd_strategy" = some v ∧
      r = if v = .str "auto" then .int (if L.canCover then 0 else 3) else strategyOf v := by
  unfold State.roundingOf at h
  cases hv : (σ.dict L.paq).get "rnd_strategy" with
  | none =>
    exfalso
    rw [hv] at h
    revert h
    cases L.hasKernel <;> cases fromConfig (σ.dict L.kq) <;> cases fromConfig (σ.dict L.paq) <;> simp [bind, Except.bind]
  | some v =>
    refine ⟨v, rfl, ?_⟩
    rw [hv] at h
    revert h
    cases L.hasKernel <;> cases fromConfig (σ.dict L.kq) <;> cases fromConfig (σ.dict L.paq) <;>
      simp [bind, Except.bind, pure, Except.pure] <;> exact fun h => h.symm

theorem documented_eq (kind : Kind) (cc : Bool) (v : Val) :
    documented kind cc v = if v = .str "auto" then .int (if kind = .activation ∨ cc = true then 0 else 3) else strategyOf v := by
  by_cases hv : v = .str "auto"
  · subst hv
    cases kind <;> cases cc <;> decide
  · rw [if_neg hv]
    unfold documented strategyOf
    split <;> first | exact absurd rfl hv | rfl | skip
    all_goals (split <;> first | rfl | simp_all)

/-- the rounding a `build` chooses now, in terms of the entry found -/
theorem build_rounding {σ : State} {L : LayerC} {r v : Val} (hl : L.paq < σ.heap.length)
    (hr : (σ.preBuild L).roundingOf L = .ok r) (hv : (σ.dict L.paq).get "rnd_strategy" = some v) :
    r = documented L.kind L.canCover v := by
  obtain ⟨w, hw, rfl⟩ := roundingOf_ok hr
  rw [preBuild_get hl, hv] at hw
  rw [documented_eq]
  by_cases hv' : v = .str "auto"
  · subst hv'
    by_cases hk : L.kind = .activation
    · rw [if_pos ⟨hk, rfl⟩] at hw
      obtain rfl := Option.some.inj hw
      rw [if_neg (by decide), if_pos rfl, if_pos (.inl hk)]
      rfl
    · rw [if_neg (fun h => hk h.1)] at hw
      obtain rfl := Option.some.inj hw
      simp [hk]
  · rw [if_neg (fun h => hv' (Option.some.inj h.2))] at hw
    obtain rfl := Option.some.inj hw
    rw [if_neg hv', if_neg hv']

/-- what the entry of the configuration of a layer can be at a later time -/
def Same (kind : Kind) (v : Val) (now : Option Val) : Prop :=
  now = some v ∨ (kind = .activation ∧ v = .str "auto" ∧ now = some (.str "standard_round"))

theorem same_run (ops : List Op) : ∀ {σ : State} {l : ℕ} {L : LayerC} {v : Val}, Inv σ → σ.layers[l]? = some L →
    Same L.kind v ((σ.dict L.paq).get "rnd_strategy") → NoAssign L.paq σ ops →
    (L.kind = .activation ∨ v ≠ .str "auto" ∨
      ∀ (j : ℕ) (M : LayerC), j ≠ l → (σ.run ops).layers[j]? = some M → M.kind = .activation → M.paq ≠ L.paq) →
    (L.rnd = none ∨ L.rnd = some (documented L.kind L.canCover v)) →
    ∃ r, (σ.run ops).layers[l]? = some { L with rnd := r } ∧ (r = none ∨ r = some (documented L.kind L.canCover v)) := by
  induction ops with
  | nil => intro σ l L v _ hL _ _ _ hr; exact ⟨L.rnd, hL, hr⟩
  | cons op ops ih =>
    intro σ l L v h hL hs hna hsh hr
    obtain ⟨ha, hna⟩ := hna
    have hlen : L.paq < σ.heap.length := (h.lays L (List.mem_of_getElem? hL)).2.2
    -- later layers: a layer keeps its class and configuration
    have keepLayer : ∀ (ops : List Op) {τ : State}, Inv τ → ∀ {j : ℕ} {M : LayerC}, τ.layers[j]? = some M →
        ∃ M', (τ.run ops).layers[j]? = some M' ∧ M'.kind = M.kind ∧ M'.paq = M.paq := by
      intro ops
      induction ops with
      | nil => intro τ _ j M hM; exact ⟨M, hM, rfl, rfl⟩
      | cons o os ih' =>
        intro τ hτ j M hM
        rcases step_layer hτ o hM with h1 | ⟨r, -, -, -, h1⟩
        · exact ih' (inv_step hτ o) h1
        · exact ih' (M := { M with rnd := some r }) (inv_step hτ o) h1
    -- the entry after the step
    have hs' : Same L.kind v (((σ.step op).1.dict L.paq).get "rnd_strategy") := by
      by_cases hb : ∃ (j : ℕ) (M : LayerC), op = .build j ∧ σ.layers[j]? = some M ∧ M.paq = L.paq
      · obtain ⟨j, M, rfl, hM, hMp⟩ := hb
        have hcase : (σ.build j).1.dict L.paq = σ.dict L.paq ∨ (σ.build j).1.dict L.paq = (σ.preBuild M).dict L.paq := by
          unfold State.build
          rw [hM]
          dsimp only
          split
          · exact .inl rfl
          · split <;> exact .inr rfl
        rcases hcase with hc | hc
        · change Same _ _ (Dict.get ((σ.build j).1.dict L.paq) _); rw [hc]; exact hs
        · change Same _ _ (Dict.get ((σ.build j).1.dict L.paq) _)
          rw [hc, ← hMp, preBuild_get (by rw [hMp]; exact hlen), hMp]
          split
          · rename_i hauto
            have hv : v = .str "auto" := by
              rcases hs with h1 | ⟨-, -, h1⟩
              · rw [h1] at hauto; exact Option.some.inj hauto.2
              · rw [h1] at hauto; exact absurd hauto.2 (by decide)
            right
            refine ⟨?_, hv, rfl⟩
            rcases hsh with h1 | h1 | h1
            · exact h1
            · exact absurd hv h1
            · by_cases hjl : j = l
              · subst hjl
                rw [hL] at hM
                obtain rfl := Option.some.inj hM
                exact hauto.1
              · obtain ⟨M', hM', e1, e2⟩ := keepLayer (.build j :: ops) h hM
                exact absurd (e2.trans hMp) (h1 j M' hjl hM' (e1.trans hauto.1))
          · exact hs
      · rw [step_dict h hlen ha]
        · exact hs
        · intro j M hj hM hMp
          exact hb ⟨j, M, hj, hM, hMp⟩
    rcases step_layer h op hL with h1 | ⟨r, hop, hnone, hround, h1⟩
    · exact ih (inv_step h op) h1 hs' hna hsh hr
    · have hrd : r = documented L.kind L.canCover v := by
        rcases hs with h2 | ⟨h2, hv, h3⟩
        · exact build_rounding hlen hround h2
        · rw [build_rounding hlen hround h3, h2, hv]; rfl
      have := ih (L := { L with rnd := some r }) (v := v) (inv_step h op) h1 hs' hna hsh (.inr (by rw [hrd]))
      exact this

/-- C54, for layers of a reachable state `σ`: take any program `ops` run from `σ`, a layer that is not built in `σ` and the entry
`v` its configuration has there. If nothing assigns to its configuration dict, and no other `HActivation` holds the same dict (or the
layer is itself an `HActivation`, or the entry is not 'auto'), then whatever is created and built before it, the layer, once built,
has the documented strategy for its own class, its own bias and `v`. Missing: a dict shared with an `HActivation`, see
`C54_shared_with_activation`. -/
theorem C54_rounding_partial (pre ops : List Op) (l : ℕ) (L : LayerC) (v : Val)
    (hL : (State.init.run pre).layers[l]? = some L) (hnew : L.rnd = none)
    (hv : ((State.init.run pre).dict L.paq).get "rnd_strategy" = some v)
    (hassign : NoAssign L.paq (State.init.run pre) ops)
    (hshare : L.kind = .activation ∨ v ≠ .str "auto" ∨
      ∀ (j : ℕ) (M : LayerC), j ≠ l → ((State.init.run pre).run ops).layers[j]? = some M → M.kind = .activation → M.paq ≠ L.paq) :
    ∃ r, ((State.init.run pre).run ops).layers[l]? = some { L with rnd := r } ∧
      (r = none ∨ r = some (documented L.kind L.canCover v)) :=
  same_run ops (inv_run inv_init pre) hL (.inl hv) hassign hshare (.inl hnew)

/-- Specification: the keywords of a quantizer. -/
def _root_.Spec.quantizerKeywords : List String :=
  ["init_bw", "skip_dims", "rnd_strategy", "exact_q_value", "dtype", "bw_clip", "trainable", "regularizer", "minmax_record"]

theorem fromConfig_bad (d : Dict) (h : (∃ k ∈ d.keys, k ∉ Spec.quantizerKeywords) ∨ "init_bw" ∉ d.keys ∨ "skip_dims" ∉ d.keys) :
    ∃ e, fromConfig d = .error e := by
  unfold fromConfig
  rw [if_neg]
  · exact ⟨_, rfl⟩
  · rw [Bool.and_eq_true, List.all_eq_true, List.all_eq_true]
    rintro ⟨h1, h2⟩
    rcases h with ⟨k, hk, hn⟩ | h | h
    · exact hn (of_decide_eq_true (h1 k hk))
    · exact h (of_decide_eq_true (h2 "init_bw" (by simp)))
    · exact h (of_decide_eq_true (h2 "skip_dims" (by simp)))

theorem preBuild_keys (σ : State) (L : LayerC) (a : ℕ) : ((σ.preBuild L).dict a).keys = (σ.dict a).keys := by
  unfold State.preBuild
  split
  · split_ifs with h
    · have hmem : "rnd_strategy" ∈ (σ.dict L.paq).keys := by
        unfold Dict.get at h
        rw [Option.map_eq_some_iff] at h
        obtain ⟨e, he, -⟩ := h
        have := List.find?_some he
        exact List.mem_map.mpr ⟨e, List.mem_of_find?_eq_some he, by simpa using this⟩
      have hkeys : ((σ.dict L.paq).set "rnd_strategy" (.str "standard_round")).keys = (σ.dict L.paq).keys := by
        unfold Dict.set
        rw [if_pos hmem]
        unfold Dict.keys
        rw [List.map_map]
        apply List.map_congr_left
        intro e _
        by_cases he : e.1 = "rnd_strategy"
        · simp [he]
        · simp [he]
      unfold State.dict at *
      by_cases ha : L.paq = a
      · subst ha
        by_cases hl : L.paq < σ.heap.length
        · rw [List.getD_eq_getElem?_getD, List.getElem?_set_self hl]
          exact hkeys
        · rw [List.set_eq_of_length_le (by omega)]
      · rw [List.getD_eq_getElem?_getD, List.getElem?_set_ne ha, ← List.getD_eq_getElem?_getD]
    · rfl
  · rfl

/-- C54, errors: building a layer whose output quantizer's configuration (or, with a kernel, whose kernel quantizer's) has an unknown
keyword, or misses a required one, or whose output quantizer's configuration says nothing about rounding, raises; the layer stays unbuilt. -/
theorem C54_bad_configuration (σ : State) (l : ℕ) (L : LayerC) (hL : σ.layers[l]? = some L) (hnew : L.rnd = none)
    (hbad : (∃ a, (a = L.paq ∨ L.hasKernel = true ∧ a = L.kq) ∧
        ((∃ k ∈ (σ.dict a).keys, k ∉ Spec.quantizerKeywords) ∨ "init_bw" ∉ (σ.dict a).keys ∨ "skip_dims" ∉ (σ.dict a).keys)) ∨
      "rnd_strategy" ∉ (σ.dict L.paq).keys) :
    (∃ e, (σ.step (.build l)).2 = .error e) ∧ (σ.step (.build l)).1.layers = σ.layers := by
  have hround : ∃ e, (σ.preBuild L).roundingOf L = .error e := by
    unfold State.roundingOf
    rcases hbad with ⟨a, ha, hb⟩ | hb
    · rw [← preBuild_keys σ L] at hb
      obtain ⟨e, he⟩ := fromConfig_bad _ hb
      rcases ha with rfl | ⟨hk, rfl⟩
      · cases hk : L.hasKernel with
        | false => exact ⟨e, by simp only [Bool.false_eq_true, if_false, he]; rfl⟩
        | true =>
          cases hq : fromConfig ((σ.preBuild L).dict L.kq) with
          | error e' => exact ⟨e', by simp only [if_true, hq]; rfl⟩
          | ok u => exact ⟨e, by simp only [if_true, hq, he]; rfl⟩
      · exact ⟨e, by simp only [hk, if_true, he]; rfl⟩
    · rw [← preBuild_keys σ L] at hb
      have hnone : ((σ.preBuild L).dict L.paq).get "rnd_strategy" = none := by
        unfold Dict.get
        rw [Option.map_eq_none_iff, List.find?_eq_none]
        intro e he hk
        exact hb (List.mem_map.mpr ⟨e, he, by simpa using hk⟩)
      rw [hnone]
      cases hk : L.hasKernel <;> cases hq : fromConfig ((σ.preBuild L).dict L.kq) <;>
        cases hp : fromConfig ((σ.preBuild L).dict L.paq) <;>
        exact ⟨_, by simp only [Bool.false_eq_true, if_false, if_true, hq, hp]; rfl⟩
  obtain ⟨e, he⟩ := hround
  unfold State.step State.build
  simp only [hL, hnew, he]
  refine ⟨⟨e, rfl⟩, ?_⟩
  simp only [Option.isSome_none, Bool.false_eq_true, if_false]
  unfold State.preBuild
  split
  · split_ifs <;> rfl
  · rfl

-- a misspelt keyword
example : (∃ e, ((State.init.run [.literal [("init_bw", .int 2), ("skip_dims", .other 0), ("rnd", .str "floor")],
    .mkLayer .other none (some 0) true true]).step (.build 0)).2 = .error e) := ⟨"TypeError", by decide +kernel⟩

/-- a dict that only layer `l` refers to -/
structure Private (σ : State) (l a : ℕ) : Prop where
  len : a < σ.heap.length
  vars : a ∉ σ.vars
  kqd : a ≠ σ.kqDef
  paqd : a ≠ σ.paqDef
  lays : ∀ (j : ℕ) (M : LayerC), j ≠ l → σ.layers[j]? = some M → a ≠ M.kq ∧ a ≠ M.paq
  own : ∀ M, σ.layers[l]? = some M → a ≠ M.kq

theorem private_step {σ : State} {l a : ℕ} (h : Inv σ) (hl : l < σ.layers.length) (hp : Private σ l a) (op : Op)
    (hr : op ≠ .readPaq l) : Private (σ.step op).1 l a := by
  have hgrow : a < (σ.step op).1.heap.length := lt_of_lt_of_le hp.len (step_length h op)
  cases op with
  | literal d =>
    exact ⟨hgrow, fun hm => by
      rcases List.mem_append.mp hm with hm | hm
      · exact hp.vars hm
      · exact absurd (List.mem_singleton.mp hm) hp.len.ne, hp.kqd, hp.paqd, hp.lays, hp.own⟩
  | getKq =>
    exact ⟨hgrow, fun hm => by
      rcases List.mem_append.mp hm with hm | hm
      · exact hp.vars hm
      · exact absurd (List.mem_singleton.mp hm) hp.len.ne, hp.kqd, hp.paqd, hp.lays, hp.own⟩
  | getPaq =>
    exact ⟨hgrow, fun hm => by
      rcases List.mem_append.mp hm with hm | hm
      · exact hp.vars hm
      · exact absurd (List.mem_singleton.mp hm) hp.len.ne, hp.kqd, hp.paqd, hp.lays, hp.own⟩
  | setKq v =>
    rcases set_kq_cases σ v with ⟨b, hv, hs⟩ | ⟨e, hs⟩
    · rw [hs]
      exact ⟨hp.len, hp.vars, fun e => hp.vars (e ▸ List.mem_of_getElem? hv), hp.paqd, hp.lays, hp.own⟩
    · rw [hs]; exact hp
  | setPaq v =>
    rcases set_paq_cases σ v with ⟨b, hv, hs⟩ | ⟨e, hs⟩
    · rw [hs]
      exact ⟨hp.len, hp.vars, hp.kqd, fun e => hp.vars (e ▸ List.mem_of_getElem? hv), hp.lays, hp.own⟩
    · rw [hs]; exact hp
  | assign v k x =>
    revert hgrow
    unfold State.step
    dsimp only
    split
    · exact fun _ => hp
    · exact fun hgrow => ⟨hgrow, hp.vars, hp.kqd, hp.paqd, hp.lays, hp.own⟩
  | mkLayer kind kq paq hk cc =>
    obtain ⟨k, p, hy, -, hvs, hkd, hpd, -, -, ok, op, -⟩ := mkLayer_spec h kind kq paq hk cc
    have nek : a ≠ k := by
      rcases ok with o | o
      · exact (lt_of_lt_of_le hp.len o).ne
      · exact fun e => hp.vars (e ▸ o)
    have nep : a ≠ p := by
      rcases op with o | o
      · exact (lt_of_lt_of_le hp.len o).ne
      · exact fun e => hp.vars (e ▸ o)
    refine ⟨hgrow, by rw [hvs]; exact hp.vars, by rw [hkd]; exact hp.kqd, by rw [hpd]; exact hp.paqd, ?_, ?_⟩
    · intro j M hj hM
      rw [hy] at hM
      by_cases hjl : j < σ.layers.length
      · rw [List.getElem?_append_left hjl] at hM
        exact hp.lays j M hj hM
      · have : M = ⟨kind, k, p, hk, cc, none⟩ := by
          have := List.mem_of_getElem? (by rw [List.getElem?_append_right (by omega)] at hM; exact hM)
          exact List.mem_singleton.mp this
        rw [this]
        exact ⟨nek, nep⟩
    · intro M hM
      rw [hy, List.getElem?_append_left hl] at hM
      exact hp.own M hM
  | readKq m =>
    revert hgrow
    unfold State.step
    dsimp only
    split
    · exact fun _ => hp
    · rename_i M hM
      intro hgrow
      refine ⟨hgrow, fun hm => ?_, hp.kqd, hp.paqd, hp.lays, hp.own⟩
      rcases List.mem_append.mp hm with hm | hm
      · exact hp.vars hm
      · have e := List.mem_singleton.mp hm
        by_cases hml : m = l
        · subst hml; exact hp.own M hM e
        · exact (hp.lays m M hml hM).1 e
  | readPaq m =>
    revert hgrow
    unfold State.step
    dsimp only
    split
    · exact fun _ => hp
    · rename_i M hM
      intro hgrow
      refine ⟨hgrow, fun hm => ?_, hp.kqd, hp.paqd, hp.lays, hp.own⟩
      rcases List.mem_append.mp hm with hm | hm
      · exact hp.vars hm
      · have e := List.mem_singleton.mp hm
        have hml : m ≠ l := fun e => hr (by rw [e])
        exact (hp.lays m M hml hM).2 e
  | build m =>
    obtain ⟨b1, b2, b3, b4⟩ := build_fields σ m
    refine ⟨hgrow, ?_, ?_, ?_, ?_, ?_⟩
    · change a ∉ (σ.build m).1.vars; rw [b4]; exact hp.vars
    · change a ≠ (σ.build m).1.kqDef; rw [b2]; exact hp.kqd
    · change a ≠ (σ.build m).1.paqDef; rw [b3]; exact hp.paqd
    · intro j M hj hM
      change (σ.build m).1.layers[j]? = _ at hM
      rcases build_layers σ m with h5 | ⟨N, r, hN, -, -, h5⟩
      · rw [h5] at hM; exact hp.lays j M hj hM
      · rw [h5, List.getElem?_set] at hM
        split at hM
        · rename_i e
          subst e
          split at hM
          · obtain rfl := Option.some.inj hM
            exact hp.lays m N hj hN
          · exact absurd hM (by simp)
        · exact hp.lays j M hj hM
    · intro M hM
      change (σ.build m).1.layers[l]? = _ at hM
      rcases build_layers σ m with h5 | ⟨N, r, hN, -, -, h5⟩
      · rw [h5] at hM; exact hp.own M hM
      · rw [h5, List.getElem?_set] at hM
        split at hM
        · rename_i e
          subst e
          split at hM
          · obtain rfl := Option.some.inj hM
            exact hp.own N hN
          · contradiction
        · exact hp.own M hM

theorem layers_length {σ : State} (h : Inv σ) (op : Op) {l : ℕ} (hl : l < σ.layers.length) : l < (σ.step op).1.layers.length := by
  rcases step_layer h op (List.getElem?_eq_getElem hl) with h1 | ⟨r, -, -, -, h1⟩
  · exact (List.getElem?_eq_some_iff.mp h1).1
  · exact (List.getElem?_eq_some_iff.mp h1).1

theorem private_run (ops : List Op) : ∀ {σ : State} {l a : ℕ}, Inv σ → l < σ.layers.length → Private σ l a →
    (∀ op ∈ ops, op ≠ .readPaq l) → Private (σ.run ops) l a ∧ NoAssign a σ ops := by
  induction ops with
  | nil => intro σ l a _ _ hp _; exact ⟨hp, trivial⟩
  | cons op ops ih =>
    intro σ l a h hl hp hr
    have h1 := private_step h hl hp op (hr op (.head _))
    obtain ⟨h2, h3⟩ := ih (inv_step h op) (layers_length h op hl) h1 fun o ho => hr o (.tail _ ho)
    exact ⟨h2, fun v _ _ _ hv => hp.vars (List.mem_of_getElem? hv), h3⟩

/-- C54 without conditions for layers made without a `paq_conf`: in every program in which nobody asks for the layer's
`paq_config`, whatever is set, assigned, created and built before and after, the layer, once built, has the documented strategy for
its own class, its own bias and the default at its creation -/
theorem C54_default_configuration (pre ops : List Op) (kind : Kind) (kq : Option ℕ) (hk cc : Bool) (v : Val)
    (hv : ((State.init.run pre).dict (State.init.run pre).paqDef).get "rnd_strategy" = some v)
    (hread : ∀ op ∈ ops, op ≠ .readPaq (State.init.run pre).layers.length) :
    ∃ L, ((State.init.run (pre ++ .mkLayer kind kq none hk cc :: ops)).layers[(State.init.run pre).layers.length]? = some L) ∧
      L.kind = kind ∧ L.canCover = cc ∧ (L.rnd = none ∨ L.rnd = some (documented kind cc v)) := by
  set σ := State.init.run pre with hσ
  have h : Inv σ := inv_run inv_init pre
  obtain ⟨k, p, hy, hi, hvs, hkd, hpd, hlen, -, ok, -, -, h2⟩ := mkLayer_spec h kind kq none hk cc
  replace h2 := h2 rfl
  obtain ⟨h2, h2', h2''⟩ := h2
  set σ₁ := (σ.step (.mkLayer kind kq none hk cc)).1 with hσ₁
  have hrun : State.init.run (pre ++ .mkLayer kind kq none hk cc :: ops) = σ₁.run ops := by
    simp only [State.run, List.foldl_append, List.foldl_cons, hσ₁, hσ]
  have hL : σ₁.layers[σ.layers.length]? = some ⟨kind, k, p, hk, cc, none⟩ := by
    rw [hy, List.getElem?_append_right le_rfl, Nat.sub_self]; rfl
  have hpriv : Private σ₁ σ.layers.length p := by
    refine ⟨(hi.lays _ (List.mem_of_getElem? hL)).2.2, ?_, ?_, ?_, ?_, ?_⟩
    · rw [hvs]; exact fun hm => absurd (h.vars _ hm).2 (by omega)
    · rw [hkd]; exact (lt_of_lt_of_le h.kqd h2).ne'
    · rw [hpd]; exact (lt_of_lt_of_le h.paqd h2).ne'
    · intro j M hj hM
      rw [hy] at hM
      by_cases hjl : j < σ.layers.length
      · rw [List.getElem?_append_left hjl] at hM
        have := h.lays M (List.mem_of_getElem? hM)
        exact ⟨(lt_of_lt_of_le this.1.2 h2).ne', (lt_of_lt_of_le this.2.2 h2).ne'⟩
      · rw [List.getElem?_eq_none (by simp; omega)] at hM
        exact absurd hM (by simp)
    · intro M hM
      rw [hL] at hM
      obtain rfl := Option.some.inj hM
      exact h2'
  have hll : σ.layers.length < σ₁.layers.length := (List.getElem?_eq_some_iff.mp hL).1
  obtain ⟨hpr, hna⟩ := private_run ops hi hll hpriv hread
  obtain ⟨r, hr, hr'⟩ := same_run ops (v := v) hi hL (.inl (by rw [h2'']; exact hv)) hna
    (.inr (.inr fun j M hj hM _ => ((hpr.lays j M hj hM).2).symm)) (.inl rfl)
  rw [hrun]
  exact ⟨_, hr, rfl, rfl, hr'⟩

/-- C54: once a layer is built its strategy never changes -/
theorem C54_permanent (pre ops : List Op) (l : ℕ) (L : LayerC) (r : Val) (hL : (State.init.run pre).layers[l]? = some L)
    (hr : L.rnd = some r) : ((State.init.run pre).run ops).layers[l]? = some L := by
  have gen : ∀ (ops : List Op) {σ : State}, Inv σ → σ.layers[l]? = some L → (σ.run ops).layers[l]? = some L := by
    intro ops
    induction ops with
    | nil => exact fun _ h => h
    | cons op ops ih =>
      intro σ h hL
      rcases step_layer h op hL with h1 | ⟨_, -, hn, -⟩
      · exact ih (inv_step h op) h1
      · rw [hr] at hn; exact absurd hn (by simp)
  exact gen ops (inv_run inv_init pre) hL

/-- the program of the counterexample: an `HActivation` and a dense layer without bias made with the same dict, saying 'auto' -/
def exShared : List Op := [.getPaq, .assign 0 "rnd_strategy" (.str "auto"), .mkLayer .activation none (some 0) false false,
  .mkLayer .other none (some 0) true false]

/-- the code violates C54: the rounding of the dense layer (number 1) is floor if it is built first, rounding to nearest if the
`HActivation` is built first -/
theorem C54_shared_with_activation :
    (((State.init.run exShared).run [.build 1, .build 0]).layers.map (·.rnd) = [some (.int 0), some (.int 3)]) ∧
      (((State.init.run exShared).run [.build 0, .build 1]).layers.map (·.rnd) = [some (.int 0), some (.int 0)]) := by
  decide +kernel

/-- the hypotheses of `C54_rounding_partial` hold of a layer that shares its dict with another dense layer, with an `HActivation`
in the model that has its own dict; the layer gets floor -/
example : let pre : List Op := [.getPaq, .assign 0 "rnd_strategy" (.str "auto"), .mkLayer .activation none none false false,
      .mkLayer .other none (some 0) true false, .mkLayer .other none (some 0) true true]
    let ops : List Op := [.build 0, .build 2, .build 1]
    ∃ L, (State.init.run pre).layers[1]? = some L ∧ L.rnd = none ∧
      ((State.init.run pre).dict L.paq).get "rnd_strategy" = some (.str "auto") ∧ NoAssign L.paq (State.init.run pre) ops ∧
      (((State.init.run pre).run ops).layers.map (·.rnd) = [some (.int 0), some (.int 3), some (.int 0)]) := by
  refine ⟨_, rfl, by decide +kernel, by decide +kernel, ?_, by decide +kernel⟩
  simp [NoAssign]

/-- the hypotheses of `C54_default_configuration` hold after the defaults were set to 'auto'; the layer built last, after an
`HActivation`, gets floor -/
example : let pre : List Op := [.getPaq, .assign 0 "rnd_strategy" (.str "auto"), .setPaq 0]
    let ops : List Op := [.mkLayer .activation none none false false, .build 1, .build 0]
    ((State.init.run pre).dict (State.init.run pre).paqDef).get "rnd_strategy" = some (.str "auto") ∧
      ((State.init.run (pre ++ .mkLayer .other none none true false :: ops)).layers.map (·.rnd)
        = [some (.int 3), some (.int 0)]) := by
  decide +kernel

end HGQ.Config
