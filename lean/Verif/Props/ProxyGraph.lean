import Verif.Props.Convert

/-!
C46: the proxy transformer settles. C71: a whole nested model and its proxy agree if every layer and its replacement do.
-/

namespace HGQ.Convert

variable {κ V : Type}

/-- number of steps the proxy transformer needs -/
def proxyRank : LK κ → ℕ
  | .hQuantize _ => 1
  | .signature _ => 1
  | .hLayer .. => 2
  | .pLayer .. => 2
  | .dropout _ => 1
  | .activation l _ => if l then 1 else 0
  | .fixedQuant .. => 0
  | .reluLayer => 0
  | .plain .. => 0

theorem find_cons {α : Type} (e : ℕ × Lay α × List (ℕ × ℕ)) (t : NodeTab α) (n : ℕ) :
    NodeTab.find (e :: t) n = if e.1 = n then some e.2 else NodeTab.find t n := by
  unfold NodeTab.find
  rw [List.find?_cons]
  by_cases h : e.1 = n
  · simp [h]
  · have : (e.1 == n) = false := by simpa using h
    rw [this]; simp [h]

theorem find_nil {α : Type} (n : ℕ) : NodeTab.find ([] : NodeTab α) n = none := rfl

theorem rank_kerasOf (act linear : Bool) (d : κ) : proxyRank (kerasOf act linear d) < 2 := by
  cases act <;> cases linear <;> simp [kerasOf, proxyRank]

theorem proxyXf_rank (id : ℕ) (name : String) (op : LK κ) (l : Lay (LK κ)) (h : proxyXf id name op = .ok (.new l)) :
    AllLeaves (fun _ _ o => proxyRank o < proxyRank op) l := by
  cases op with
  | hQuantize d => simp [proxyXf] at h; subst h; exact .leaf _ _ _ (by simp [proxyRank])
  | signature d => simp [proxyXf] at h; subst h; exact .leaf _ _ _ (by simp [proxyRank])
  | hLayer nIn act linear relu known d =>
    simp only [proxyXf] at h
    split_ifs at h
    · simp only [Except.ok.injEq, XRes.new.injEq] at h
      subst h
      refine .model _ _ _ ?_
      intro n l args hf
      have := find_entry hf
      simp only [List.mem_cons, Prod.mk.injEq, List.not_mem_nil, or_false] at this
      rcases this with ⟨-, rfl, -⟩ | ⟨-, rfl, -⟩ | ⟨-, rfl, -⟩ | ⟨-, rfl, -⟩ <;> refine .leaf _ _ _ ?_
      · exact rank_kerasOf _ _ _
      all_goals simp [proxyRank]
    · simp only [Except.ok.injEq, XRes.new.injEq] at h
      subst h
      refine .model _ _ _ ?_
      intro n l args hf
      have := find_entry hf
      simp only [List.mem_cons, Prod.mk.injEq, List.not_mem_nil, or_false] at this
      rcases this with ⟨-, rfl, -⟩ | ⟨-, rfl, -⟩ <;> refine .leaf _ _ _ ?_
      · exact rank_kerasOf _ _ _
      all_goals simp [proxyRank]
  | pLayer dropout known d =>
    simp only [proxyXf] at h
    split_ifs at h <;> (simp only [Except.ok.injEq, XRes.new.injEq] at h; subst h; exact .leaf _ _ _ (by simp [proxyRank]))
  | dropout d => simp [proxyXf] at h
  | activation linear d => cases linear <;> simp [proxyXf] at h
  | fixedQuant s d => simp [proxyXf] at h
  | reluLayer => simp [proxyXf] at h
  | plain s d => simp only [proxyXf] at h; split_ifs at h; simp at h

/-- the errors of the transformer itself -/
theorem proxyXf_err (id : ℕ) (name : String) (op : LK κ) (e : String) (h : proxyXf id name op = .error e) :
    e = "Unknown layer type" ∨ e = "not supported by hls4ml" := by
  cases op with
  | hQuantize d => simp [proxyXf] at h
  | signature d => simp [proxyXf] at h
  | hLayer nIn act linear relu known d =>
    simp only [proxyXf] at h
    split_ifs at h
    simp at h; exact Or.inl h.symm
  | pLayer dropout known d => simp only [proxyXf] at h; split_ifs at h; simp at h; exact Or.inl h.symm
  | dropout d => simp [proxyXf] at h
  | activation linear d => cases linear <;> simp [proxyXf] at h
  | fixedQuant s d => simp [proxyXf] at h
  | reluLayer => simp [proxyXf] at h
  | plain s d => simp only [proxyXf] at h; split_ifs at h; simp at h; exact Or.inr h.symm

theorem settle_proxy (g : ℕ) : ∀ (ch : Bool) (id : ℕ) (name : String) (op : LK κ), proxyRank op < g →
    match settle proxyXf g ch id name op with
    | .error e => e = "Unknown layer type" ∨ e = "not supported by hls4ml"
    | .ok (.layer _ id' name' op') => proxyXf id' name' op' = .ok .same
    | .ok .dropped => True
    | .ok (.toModel l) => ∃ i ns o, l = .model i ns o := by
  induction g with
  | zero => intro ch id name op h; omega
  | succ g ih =>
    intro ch id name op hr
    unfold settle
    cases hx : proxyXf id name op with
    | error e => exact proxyXf_err _ _ _ _ hx
    | ok r =>
      match r, hx with
      | .same, hx => exact hx
      | .drop, hx => simp
      | .new (.model i ns o), hx => exact ⟨i, ns, o, rfl⟩
      | .new (.leaf id' name' op'), hx =>
        have := proxyXf_rank _ _ _ _ hx
        cases this with | leaf _ _ _ h => exact ih true id' name' op' (by omega)

/-- **C46.** Transforming any layer ends, long before the guard of 1024 iterations (three are enough), with a layer the
transformer maps to itself, with nothing, or with a model (whose layers are then transformed in turn); or the transformer
itself rejects the layer. -/
theorem C46_settles (g : ℕ) (hg : 3 ≤ g) (id : ℕ) (name : String) (op : LK κ) :
    match settle proxyXf g false id name op with
    | .error e => e = "Unknown layer type" ∨ e = "not supported by hls4ml"
    | .ok (.layer _ id' name' op') => proxyXf id' name' op' = .ok .same
    | .ok .dropped => True
    | .ok (.toModel l) => ∃ i ns o, l = .model i ns o := by
  refine settle_proxy g false id name op (lt_of_lt_of_le ?_ hg)
  cases op with
  | activation l d => cases l <;> simp [proxyRank]
  | _ => simp [proxyRank]

/-- **C46**, the guard never trips. -/
theorem C46_guard_never_trips (id : ℕ) (name : String) (op : LK κ) :
    settle proxyXf 1024 false id name op ≠ .error "layer_transformer does not converge" := by
  intro h
  have := C46_settles (κ := κ) 1024 (by omega) id name op
  rw [h] at this
  simp at this

-- a passive dropout needs two steps and disappears; a linear `HActivation` keeps only its quantizer
example : settle proxyXf 1024 false 0 "d" (.pLayer true true ()) = .ok .dropped := rfl
example : (match convert (fun _ => 1) proxyXf 10 [0]
      [(1, .leaf 1 "a" (.hLayer 1 true true false true ()), [(0, 0)]), (2, .leaf 2 "d" (.pLayer true true ()), [(1, 0)])]
      [(2, 0)] with
    | .ok (p, _) => p.calls.map fun c => (c.name, c.op)
    | .error _ => []) = [("a_quantizer", .fixedQuant false ())] := rfl
example : settle proxyXf 1024 false 0 "d" (.hLayer 1 false false false false ()) = .error "Unknown layer type" := rfl

/-- **C46**, fixed point: every layer of a converted model is one the transformer maps to itself. -/
theorem C46_fixed_point (ar : LK κ → ℕ) (fuel : ℕ) (inputs : List ℕ) (nodes : NodeTab (LK κ)) (outputs : List (ℕ × ℕ))
    (p : Prog (LK κ)) (ren : List (ℕ × String)) (hp : convert ar proxyXf fuel inputs nodes outputs = .ok (p, ren)) :
    ∀ c ∈ p.calls, ∀ id name, proxyXf id name c.op = .ok .same := by
  obtain ⟨s', hs, hc, -⟩ := convert_ok_iff.mp hp
  have hsame : ∀ (op : LK κ) id name id' name', proxyXf id name op = .ok .same → proxyXf id' name' op = .ok .same := by
    intro op id name id' name' h
    cases op with
    | hLayer nIn act linear relu known d =>
      simp only [proxyXf] at h
      split_ifs at h <;> simp at h
    | pLayer dropout known d => simp only [proxyXf] at h; split_ifs at h <;> simp at h
    | hQuantize d => simp [proxyXf] at h
    | signature d => simp [proxyXf] at h
    | dropout d => simp [proxyXf] at h
    | activation l d => simpa [proxyXf] using h
    | fixedQuant s d => simp [proxyXf]
    | reluLayer => simp [proxyXf]
    | plain s d => simpa [proxyXf] using h
  have := applyLayer_rel ar proxyXf (fun s s' : St (LK κ) => (∀ c ∈ s.calls, ∀ id name, proxyXf id name c.op = .ok .same) →
      ∀ c ∈ s'.calls, ∀ id name, proxyXf id name c.op = .ok .same) (fun s h => h) (fun a b c h1 h2 h3 => h2 (h1 h3)) (by
      intro ch id name op id' name' op' hset orig path ins s o s' h h1 c hc
      obtain ⟨nm, -, e2, -⟩ := callLeaf_eq h
      rw [e2] at hc
      rcases List.mem_append.mp hc with hc | hc
      · exact h1 c hc
      · simp only [List.mem_singleton] at hc
        subst hc
        have := C46_settles (κ := κ) 1024 (by omega) id name op
        rw [hset] at this
        exact fun i n => hsame _ _ _ _ _ this) fuel _ _ _ _ _ _ _ hs (by simp)
  rw [← hc]
  exact this

/-! C71 -/

/-- what the layers compute, in inference (`none`: outside the range a layer is specified for) -/
structure LayerSem (κ V : Type) where
  /-- an HGQ or passive layer -/
  fwd : LK κ → List V → Option V
  /-- the Keras layer made from layer `d` (or the plain layer `d` itself) -/
  keras : κ → List V → Option V
  /-- the first (second) quantizer made from layer `d` -/
  quant : Bool → κ → V → Option V
  /-- `ReLU` -/
  relu : V → Option V

/-- what a layer of each kind computes -/
def LayerSem.sem (S : LayerSem κ V) : LK κ → List V → Option (List V)
  | .hQuantize d, xs => (S.fwd (.hQuantize d) xs).map fun y => [y]
  | .signature d, xs => (S.fwd (.signature d) xs).map fun y => [y]
  | .hLayer nIn act linear relu known d, xs =>
    if known && (xs.length == nIn) then (S.fwd (.hLayer nIn act linear relu known d) xs).map fun y => [y] else none
  | .pLayer dropout known d, xs => if known then (S.fwd (.pLayer dropout known d) xs).map fun y => [y] else none
  | .dropout _, xs => match xs with
    | [x] => some [x]
    | _ => none
  | .activation linear d, xs => if linear then match xs with
      | [x] => some [x]
      | _ => none
    else (S.keras d xs).map fun y => [y]
  | .fixedQuant second d, xs => match xs with
    | [x] => (S.quant second d x).map fun y => [y]
    | _ => none
  | .reluLayer, xs => match xs with
    | [x] => (S.relu x).map fun y => [y]
    | _ => none
  | .plain supported d, xs => if supported then (S.keras d xs).map fun y => [y] else none

/-- layer by layer, the replacement computes what the layer computes -/
structure Faithful (S : LayerSem κ V) : Prop where
  hQuantize : ∀ d xs y, S.fwd (.hQuantize d) xs = some y → ∃ x, xs = [x] ∧ S.quant false d x = some y
  signature : ∀ d xs y, S.fwd (.signature d) xs = some y → ∃ x, xs = [x] ∧ S.quant false d x = some y
  /-- a layer with relu: layer, quantizer, relu, quantizer -/
  hRelu : ∀ n linear known d xs y, S.fwd (.hLayer n false linear true known d) xs = some y →
    ∃ a b c, S.keras d xs = some a ∧ S.quant false d a = some b ∧ S.relu b = some c ∧ S.quant true d c = some y
  /-- a layer without activation: layer, quantizer -/
  hPlain : ∀ n linear known d xs y, S.fwd (.hLayer n false linear false known d) xs = some y →
    ∃ a, S.keras d xs = some a ∧ S.quant false d a = some y
  /-- `HActivation`: activation, quantizer -/
  hAct : ∀ n relu known d xs y, S.fwd (.hLayer n true false relu known d) xs = some y →
    ∃ a, S.keras d xs = some a ∧ S.quant false d a = some y
  /-- `HActivation` with the linear activation: quantizer -/
  hActLinear : ∀ n relu known d xs y, S.fwd (.hLayer n true true relu known d) xs = some y →
    ∃ a, xs = [a] ∧ S.quant false d a = some y
  passive : ∀ known d xs y, S.fwd (.pLayer false known d) xs = some y → S.keras d xs = some y
  dropout : ∀ known d xs y, S.fwd (.pLayer true known d) xs = some y → xs = [y]

theorem sem_len (S : LayerSem κ V) (op : LK κ) (vs ys : List V) (h : S.sem op vs = some ys) : ys.length = 1 := by
  have key : ∀ o : Option V, (o.map fun y => [y]) = some ys → ys.length = 1 := by
    intro o ho
    cases o with
    | none => cases ho
    | some y => cases ho; rfl
  cases op <;> simp only [LayerSem.sem] at h
  all_goals first
    | exact key _ h
    | (split_ifs at h <;> first | exact key _ h | (split at h <;> first | (cases h; rfl) | cases h))
    | (split at h <;> first | exact key _ h | (cases h; rfl) | cases h)

theorem range_toList (xs : List V) : ((List.range xs.length).map fun i => (xs[i]?).toList) = xs.map fun x => [x] := by
  apply List.ext_getElem
  · simp
  · intro i h1 h2
    simp only [List.length_map, List.length_range] at h1
    simp [h1]

theorem range_args (xs : List V) (v : ℕ → List V) (hv : ∀ i, i < xs.length → v i = (xs[i]?).toList) :
    ((List.range xs.length).map fun n => ((n, 0) : ℕ × ℕ)).map (fun a => (v a.1)[a.2]?) = xs.map some := by
  rw [List.map_map]
  apply List.ext_getElem
  · simp
  · intro i h1 h2
    simp only [List.length_map, List.length_range] at h1
    simp [hv i h1, h1]

/-- the two-layer model built for an HGQ layer -/
theorem chain2_single {α : Type} (n : ℕ) (a b : Lay α) (ar : α → ℕ) (ha : SingleOut ar a) (hb : SingleOut ar b) :
    SingleOut ar (.model (List.range n) [(n, a, (List.range n).map fun m => (m, 0)), (n + 1, b, [(n, 0)])] [(n + 1, 0)]) := by
  refine .model _ _ _ rfl ⟨?_, ⟨fun m => m, ?_⟩⟩ (by simp) ?_ ?_
  · intro m hm
    cases hm with
    | output o ho => simp at ho; subst ho; right; simp [find_cons]
    | parent m l args x hm hf hx =>
      have := find_entry hf
      simp only [List.mem_cons, Prod.mk.injEq, List.not_mem_nil, or_false] at this
      rcases this with ⟨-, -, rfl⟩ | ⟨-, -, rfl⟩
      · simp only [List.mem_map, List.mem_range] at hx
        obtain ⟨i, hi, rfl⟩ := hx
        left; simpa using hi
      · simp at hx; subst hx; right; simp [find_cons]
  · intro m l args hf x hx
    have := find_entry hf
    simp only [List.mem_cons, Prod.mk.injEq, List.not_mem_nil, or_false] at this
    rcases this with ⟨rfl, -, rfl⟩ | ⟨rfl, -, rfl⟩
    · simp only [List.mem_map, List.mem_range] at hx
      obtain ⟨i, hi, rfl⟩ := hx
      exact hi
    · simp at hx; subst hx; simp
  · intro m l args hf x hx
    have := find_entry hf
    simp only [List.mem_cons, Prod.mk.injEq, List.not_mem_nil, or_false] at this
    rcases this with ⟨rfl, -, rfl⟩ | ⟨rfl, -, rfl⟩
    · simp only [List.mem_map, List.mem_range] at hx
      obtain ⟨i, hi, rfl⟩ := hx
      rfl
    · simp at hx; subst hx; rfl
  · intro m l args hf
    have := find_entry hf
    simp only [List.mem_cons, Prod.mk.injEq, List.not_mem_nil, or_false] at this
    rcases this with ⟨-, rfl, -⟩ | ⟨-, rfl, -⟩
    · exact ha
    · exact hb

theorem chain2_eval {α : Type} (sem : α → List V → Option (List V)) (a b : Lay α) (xs : List V) (x y : V)
    (ha : Eval sem a xs [x]) (hb : Eval sem b [x] [y]) :
    Eval sem (.model (List.range xs.length) [(xs.length, a, (List.range xs.length).map fun m => (m, 0)),
      (xs.length + 1, b, [(xs.length, 0)])] [(xs.length + 1, 0)]) xs [y] := by
  refine .model _ _ _ _ _ (fun m => if m < xs.length then (xs[m]?).toList else if m = xs.length then [x] else [y])
    (fun m => if m = xs.length then xs else [x]) ?_ ?_ ?_ ?_
  · rw [← range_toList xs]
    apply List.map_congr_left
    intro i hi
    simp [List.mem_range.mp hi]
  · intro m l args _ _ hf
    have := find_entry hf
    simp only [List.mem_cons, Prod.mk.injEq, List.not_mem_nil, or_false] at this
    rcases this with ⟨rfl, -, rfl⟩ | ⟨rfl, -, rfl⟩
    · rw [if_pos rfl]
      exact range_args xs (fun m => if m < xs.length then (xs[m]?).toList else if m = xs.length then [x] else [y])
        fun i hi => by simp [hi]
    · simp
  · intro m l args _ _ hf
    have := find_entry hf
    simp only [List.mem_cons, Prod.mk.injEq, List.not_mem_nil, or_false] at this
    rcases this with ⟨rfl, rfl, rfl⟩ | ⟨rfl, rfl, rfl⟩
    · simpa using ha
    · simpa using hb
  · simp

/-- the four-layer model built for an HGQ layer with relu -/
theorem chain4_single {α : Type} (n : ℕ) (a b c d : Lay α) (ar : α → ℕ) (ha : SingleOut ar a) (hb : SingleOut ar b)
    (hc : SingleOut ar c) (hd : SingleOut ar d) :
    SingleOut ar (.model (List.range n) [(n, a, (List.range n).map fun m => (m, 0)), (n + 1, b, [(n, 0)]),
      (n + 2, c, [(n + 1, 0)]), (n + 3, d, [(n + 2, 0)])] [(n + 3, 0)]) := by
  refine .model _ _ _ rfl ⟨?_, ⟨fun m => m, ?_⟩⟩ (by simp) ?_ ?_
  · intro m hm
    cases hm with
    | output o ho => simp at ho; subst ho; right; simp [find_cons]
    | parent m l args x hm hf hx =>
      have := find_entry hf
      simp only [List.mem_cons, Prod.mk.injEq, List.not_mem_nil, or_false] at this
      rcases this with ⟨-, -, rfl⟩ | ⟨-, -, rfl⟩ | ⟨-, -, rfl⟩ | ⟨-, -, rfl⟩
      · simp only [List.mem_map, List.mem_range] at hx
        obtain ⟨i, hi, rfl⟩ := hx
        left; simpa using hi
      all_goals (simp at hx; subst hx; right; simp [find_cons])
  · intro m l args hf x hx
    have := find_entry hf
    simp only [List.mem_cons, Prod.mk.injEq, List.not_mem_nil, or_false] at this
    rcases this with ⟨rfl, -, rfl⟩ | ⟨rfl, -, rfl⟩ | ⟨rfl, -, rfl⟩ | ⟨rfl, -, rfl⟩
    · simp only [List.mem_map, List.mem_range] at hx
      obtain ⟨i, hi, rfl⟩ := hx
      exact hi
    all_goals (simp at hx; subst hx; simp)
  · intro m l args hf x hx
    have := find_entry hf
    simp only [List.mem_cons, Prod.mk.injEq, List.not_mem_nil, or_false] at this
    rcases this with ⟨rfl, -, rfl⟩ | ⟨rfl, -, rfl⟩ | ⟨rfl, -, rfl⟩ | ⟨rfl, -, rfl⟩
    · simp only [List.mem_map, List.mem_range] at hx
      obtain ⟨i, hi, rfl⟩ := hx
      rfl
    all_goals (simp at hx; subst hx; rfl)
  · intro m l args hf
    have := find_entry hf
    simp only [List.mem_cons, Prod.mk.injEq, List.not_mem_nil, or_false] at this
    rcases this with ⟨-, rfl, -⟩ | ⟨-, rfl, -⟩ | ⟨-, rfl, -⟩ | ⟨-, rfl, -⟩ <;> assumption

theorem chain4_eval {α : Type} (sem : α → List V → Option (List V)) (a b c d : Lay α) (xs : List V) (x y z w : V)
    (ha : Eval sem a xs [x]) (hb : Eval sem b [x] [y]) (hc : Eval sem c [y] [z]) (hd : Eval sem d [z] [w]) :
    Eval sem (.model (List.range xs.length) [(xs.length, a, (List.range xs.length).map fun m => (m, 0)),
      (xs.length + 1, b, [(xs.length, 0)]), (xs.length + 2, c, [(xs.length + 1, 0)]),
      (xs.length + 3, d, [(xs.length + 2, 0)])] [(xs.length + 3, 0)]) xs [w] := by
  refine .model _ _ _ _ _ (fun m => if m < xs.length then (xs[m]?).toList else if m = xs.length then [x] else
      if m = xs.length + 1 then [y] else if m = xs.length + 2 then [z] else [w])
    (fun m => if m = xs.length then xs else if m = xs.length + 1 then [x] else if m = xs.length + 2 then [y] else [z])
    ?_ ?_ ?_ ?_
  · rw [← range_toList xs]
    apply List.map_congr_left
    intro i hi
    simp [List.mem_range.mp hi]
  · intro m l args _ _ hf
    have := find_entry hf
    simp only [List.mem_cons, Prod.mk.injEq, List.not_mem_nil, or_false] at this
    rcases this with ⟨rfl, -, rfl⟩ | ⟨rfl, -, rfl⟩ | ⟨rfl, -, rfl⟩ | ⟨rfl, -, rfl⟩
    · rw [if_pos rfl]
      exact range_args xs (fun m => if m < xs.length then (xs[m]?).toList else if m = xs.length then [x] else
        if m = xs.length + 1 then [y] else if m = xs.length + 2 then [z] else [w]) fun i hi => by simp [hi]
    all_goals simp
  · intro m l args _ _ hf
    have := find_entry hf
    simp only [List.mem_cons, Prod.mk.injEq, List.not_mem_nil, or_false] at this
    rcases this with ⟨rfl, rfl, rfl⟩ | ⟨rfl, rfl, rfl⟩ | ⟨rfl, rfl, rfl⟩ | ⟨rfl, rfl, rfl⟩
    · simpa using ha
    · simpa using hb
    · simpa using hc
    · simpa using hd
  · simp

theorem map_single {o : Option V} {ys : List V} (h : (o.map fun y => [y]) = some ys) : ∃ y, o = some y ∧ ys = [y] := by
  cases o with
  | none => cases h
  | some y => cases h; exact ⟨y, rfl, rfl⟩

theorem proxyXf_ok (S : LayerSem κ V) (hS : Faithful S) : XfOK (fun _ => 1) S.sem (proxyXf (κ := κ)) where
  total := by
    intro id name op xs ys h
    cases op with
    | hLayer n act lin relu known d =>
      simp only [LayerSem.sem] at h
      split_ifs at h with hk
      simp only [Bool.and_eq_true] at hk
      obtain rfl := hk.1
      simp only [proxyXf, Bool.not_true, Bool.false_eq_true, if_false]
      split_ifs <;> exact ⟨_, rfl⟩
    | pLayer dr known d =>
      simp only [LayerSem.sem] at h
      split_ifs at h with hk
      simp only [proxyXf, hk]
      exact ⟨_, rfl⟩
    | plain s d =>
      simp only [LayerSem.sem] at h
      split_ifs at h with hk
      simp only [proxyXf, hk]
      exact ⟨_, rfl⟩
    | _ => exact ⟨_, rfl⟩
  drop := by
    intro id name op h xs ys hs
    cases op with
    | hQuantize d => simp [proxyXf] at h
    | signature d => simp [proxyXf] at h
    | hLayer n act lin relu known d => simp only [proxyXf] at h; split_ifs at h <;> simp at h
    | pLayer dr known d => simp only [proxyXf] at h; split_ifs at h <;> simp at h
    | dropout d =>
      simp only [LayerSem.sem] at hs
      split at hs
      · cases hs; rfl
      · cases hs
    | activation lin d =>
      simp only [proxyXf] at h
      split_ifs at h with hl
      · simp only [LayerSem.sem, hl, if_true] at hs
        split at hs
        · cases hs; rfl
        · cases hs
      · simp at h
    | fixedQuant s d => simp [proxyXf] at h
    | reluLayer => simp [proxyXf] at h
    | plain s d => simp only [proxyXf] at h; split_ifs at h; simp at h
  new := by
    intro id name op l h
    cases op with
    | hQuantize d =>
      simp [proxyXf] at h; subst h
      refine ⟨?_, .leaf _ _ _ rfl⟩
      intro xs ys hev
      cases hev with
      | leaf _ _ _ _ _ hs =>
        obtain ⟨y, h1, rfl⟩ := map_single hs
        obtain ⟨x, rfl, h2⟩ := hS.hQuantize _ _ _ h1
        exact .leaf _ _ _ _ _ (by simp [LayerSem.sem, h2])
    | signature d =>
      simp [proxyXf] at h; subst h
      refine ⟨?_, .leaf _ _ _ rfl⟩
      intro xs ys hev
      cases hev with
      | leaf _ _ _ _ _ hs =>
        obtain ⟨y, h1, rfl⟩ := map_single hs
        obtain ⟨x, rfl, h2⟩ := hS.signature _ _ _ h1
        exact .leaf _ _ _ _ _ (by simp [LayerSem.sem, h2])
    | hLayer n act lin relu known d =>
      have hpre : ∀ xs ys, Eval S.sem (.leaf id name (.hLayer n act lin relu known d)) xs ys →
          n = xs.length ∧ ∃ y, ys = [y] ∧ S.fwd (.hLayer n act lin relu known d) xs = some y := by
        intro xs ys hev
        cases hev with
        | leaf _ _ _ _ _ hs =>
          simp only [LayerSem.sem] at hs
          split_ifs at hs with hk
          simp only [Bool.and_eq_true, beq_iff_eq] at hk
          obtain ⟨y, h1, rfl⟩ := map_single hs
          exact ⟨hk.2.symm, y, rfl, h1⟩
      have hk1 : SingleOut (fun _ => 1) (.leaf id name (kerasOf act lin d)) := .leaf _ _ _ rfl
      simp only [proxyXf] at h
      split_ifs at h with h1 h2
      · simp only [Except.ok.injEq, XRes.new.injEq] at h
        subst h
        refine ⟨?_, chain4_single n _ _ _ _ _ hk1 (.leaf _ _ _ rfl) (.leaf _ _ _ rfl) (.leaf _ _ _ rfl)⟩
        intro xs ys hev
        obtain ⟨rfl, y, rfl, hy⟩ := hpre xs ys hev
        simp only [Bool.and_eq_true, Bool.not_eq_true'] at h2
        obtain ⟨rfl, rfl⟩ := h2
        obtain ⟨a, b, c, e1, e2, e3, e4⟩ := hS.hRelu _ _ _ _ _ _ hy
        exact chain4_eval S.sem _ _ _ _ xs a b c y (.leaf _ _ _ _ _ (by simp [LayerSem.sem, kerasOf, e1]))
          (.leaf _ _ _ _ _ (by simp [LayerSem.sem, e2])) (.leaf _ _ _ _ _ (by simp [LayerSem.sem, e3]))
          (.leaf _ _ _ _ _ (by simp [LayerSem.sem, e4]))
      · simp only [Except.ok.injEq, XRes.new.injEq] at h
        subst h
        refine ⟨?_, chain2_single n _ _ _ hk1 (.leaf _ _ _ rfl)⟩
        intro xs ys hev
        obtain ⟨rfl, y, rfl, hy⟩ := hpre xs ys hev
        cases act with
        | true =>
          cases lin with
          | true =>
            obtain ⟨a, rfl, e2⟩ := hS.hActLinear _ _ _ _ _ _ hy
            exact chain2_eval S.sem _ _ [a] a y (.leaf _ _ _ _ _ (by simp [LayerSem.sem, kerasOf]))
              (.leaf _ _ _ _ _ (by simp [LayerSem.sem, e2]))
          | false =>
            obtain ⟨a, e1, e2⟩ := hS.hAct _ _ _ _ _ _ hy
            exact chain2_eval S.sem _ _ xs a y (.leaf _ _ _ _ _ (by simp [LayerSem.sem, kerasOf, e1]))
              (.leaf _ _ _ _ _ (by simp [LayerSem.sem, e2]))
        | false =>
          cases relu with
          | true => simp at h2
          | false =>
            obtain ⟨a, e1, e2⟩ := hS.hPlain _ _ _ _ _ _ hy
            exact chain2_eval S.sem _ _ xs a y (.leaf _ _ _ _ _ (by simp [LayerSem.sem, kerasOf, e1]))
              (.leaf _ _ _ _ _ (by simp [LayerSem.sem, e2]))
    | pLayer dr known d =>
      simp only [proxyXf] at h
      split_ifs at h with hk hd <;>
        (simp only [Except.ok.injEq, XRes.new.injEq] at h; subst h; refine ⟨?_, .leaf _ _ _ rfl⟩; intro xs ys hev;
         cases hev with
         | leaf _ _ _ _ _ hs =>
          simp only [LayerSem.sem] at hs
          split_ifs at hs with hk'
          obtain ⟨y, h1, rfl⟩ := map_single hs
          first
          | (obtain rfl : dr = true := hd
             obtain rfl := hS.dropout _ _ _ _ h1
             exact .leaf _ _ _ _ _ (by simp [LayerSem.sem]))
          | (obtain rfl : dr = false := by simpa using hd
             exact .leaf _ _ _ _ _ (by simp [LayerSem.sem, hS.passive _ _ _ _ h1])))
    | dropout d => simp [proxyXf] at h
    | activation lin d => cases lin <;> simp [proxyXf] at h
    | fixedQuant s d => simp [proxyXf] at h
    | reluLayer => simp [proxyXf] at h
    | plain s d => simp only [proxyXf] at h; split_ifs at h; simp at h
  rank := by
    refine ⟨fun _ _ op => proxyRank op, ?_, ?_, fun id name op l h => proxyXf_rank id name op l h⟩
    · intro _ _ op
      cases op with
      | activation l d => cases l <;> simp [proxyRank]
      | _ => simp [proxyRank]
    · intro id name op h
      cases op with
      | activation lin d => cases lin <;> simp [proxyXf, proxyRank] at h ⊢
      | hLayer n act lin relu known d => simp [proxyRank]
      | pLayer dr known d => simp [proxyRank]
      | plain s d => simp only [proxyXf] at h; split_ifs at h; simp at h
      | fixedQuant s d => simp [proxyXf] at h
      | reluLayer => simp [proxyXf] at h
      | hQuantize d => simp [proxyRank]
      | signature d => simp [proxyRank]
      | dropout d => simp [proxyRank]

/-- **C71.** Whole models: if every layer and what replaces it compute the same on the inputs the layer is specified for,
then on every input on which a nested model (with any sharing) gives `ys` using only such layer inputs, `to_proxy_model`
returns a model, and that model gives `ys`. -/
theorem C71_model_proxy_agree (S : LayerSem κ V) (hS : Faithful S) (inputs : List ℕ) (nodes : NodeTab (LK κ))
    (outputs : List (ℕ × ℕ)) (hg : GraphOK inputs nodes outputs) (ho : ∀ o ∈ outputs, o.2 = 0)
    (h0 : ∀ n l args, nodes.find n = some (l, args) → ∀ a ∈ args, a.2 = 0)
    (hso : ∀ n l args, nodes.find n = some (l, args) → SingleOut (fun _ => 1) l) (xs ys : List V)
    (hev : Eval S.sem (.model inputs nodes outputs) xs ys) :
    (∃ N, ∀ fuel, N ≤ fuel → ∃ p ren, convert (fun _ => 1) proxyXf fuel inputs nodes outputs = .ok (p, ren)) ∧
    ∀ fuel p ren, convert (fun _ => 1) proxyXf fuel inputs nodes outputs = .ok (p, ren) → p.eval S.sem xs = some ys :=
  ⟨C43_convert_succeeds _ S.sem proxyXf (sem_len S) (proxyXf_ok S hS) inputs nodes outputs hg ho h0 hso xs ys hev,
    fun fuel p ren hp => C43_convert_same_function _ S.sem proxyXf (sem_len S) (proxyXf_ok S hS) inputs nodes outputs hg ho
      h0 hso fuel p ren hp xs ys hev⟩

end HGQ.Convert
