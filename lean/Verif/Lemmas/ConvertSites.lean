import Verif.Lemmas.ConvertTrace

/-!
Lemmas for C44: which layer calls end up in a converted model.
-/

namespace HGQ.Convert

variable {α : Type}

theorem callLeaf_eq {ar : α → ℕ} {orig : Bool} {path : List ℕ} {id : ℕ} {name : String} {op : α} {ins o : List Ref}
    {s s' : St α} (h : callLeaf ar orig path id name op ins s = .ok (o, s')) :
    ∃ nm, nextName s.used (if orig then (s.renamed.lookup id).getD name else name) = some nm ∧
      s'.calls = s.calls ++ [⟨path, nm, op, ins⟩] ∧ s'.used = nm :: s.used ∧
      s'.renamed = if orig then (id, nm) :: s.renamed else s.renamed := by
  unfold callLeaf at h
  simp only at h
  generalize (if orig = true then (s.renamed.lookup id).getD name else name) = cur at h ⊢
  cases hn : nextName s.used cur with
  | none => simp [hn] at h
  | some nm =>
    simp only [hn, Except.ok.injEq, Prod.mk.injEq] at h
    obtain ⟨-, rfl⟩ := h
    exact ⟨nm, rfl, rfl, rfl, rfl⟩

theorem WF.acyc {l : Lay α} (h : WF l) : Acyc l := by
  induction h with
  | leaf id name op => exact .leaf _ _ _
  | model i n o hd _ _ ih => exact .model _ _ _ hd ih

theorem zip_keys (inputs : List ℕ) (ins : List Ref) :
    ∀ m ∈ ((inputs.zip (ins.map fun r => [r])).reverse).map (·.1), m ∈ inputs := by
  intro m hm
  simp only [List.map_reverse, List.mem_reverse, List.mem_map] at hm
  obtain ⟨p, hp, rfl⟩ := hm
  exact (List.of_mem_zip hp).1

/-- an invariant of the state kept by the layer calls of the needed nodes is kept -/
theorem mapS_inv (P : St α → Prop) (f : ℕ → Sat × St α → Except String (List Ref × (Sat × St α))) :
    ∀ ns : List ℕ, (∀ n ∈ ns, ∀ sat s r sat' s', P s → f n (sat, s) = .ok (r, (sat', s')) → P s') →
    ∀ sat s rs sat' s', P s → mapS f ns (sat, s) = .ok (rs, (sat', s')) → P s' := by
  intro ns
  induction ns with
  | nil =>
    intro _ sat s rs sat' s' hP hr
    simp only [mapS, Except.ok.injEq, Prod.mk.injEq] at hr
    obtain ⟨-, rfl, rfl⟩ := hr
    exact hP
  | cons n ns ih =>
    intro h sat s rs sat' s' hP hr
    rw [mapS] at hr
    cases h1 : f n (sat, s) with
    | error e => simp [h1, bind, Except.bind] at hr
    | ok p =>
      obtain ⟨c, sat1, s1⟩ := p
      simp only [h1, bind, Except.bind] at hr
      have hP1 := h n (by simp) _ _ _ _ _ hP h1
      cases h2 : mapS f ns (sat1, s1) with
      | error e => simp [h2] at hr
      | ok q =>
        obtain ⟨cs, sat2, s2⟩ := q
        simp only [h2, pure, Except.pure, Except.ok.injEq, Prod.mk.injEq] at hr
        obtain ⟨-, rfl, rfl⟩ := hr
        exact ih (fun n hn => h n (by simp [hn])) _ _ _ _ _ hP1 h2

theorem getOut_inv (P : St α → Prop)
    (ap : ℕ → Lay α → List Ref → St α → Except String (List Ref × St α)) (nodes : NodeTab α) (outputs : List (ℕ × ℕ))
    (h : ∀ n l args ins s o s', Needed nodes outputs n → nodes.find n = some (l, args) → P s →
      ap n l ins s = .ok (o, s') → P s') :
    ∀ k n sat s r sat' s', Needed nodes outputs n → P s → getOut ap nodes k n (sat, s) = .ok (r, (sat', s')) → P s' := by
  intro k
  induction k with
  | zero => intro n sat s r sat' s' _ _ hr; simp [getOut] at hr
  | succ k ih =>
    intro n sat s r sat' s' hn hP hr
    rw [getOut] at hr
    cases hl : sat.lookup n with
    | some q =>
      simp [hl] at hr
      rw [← hr.2.2]; exact hP
    | none =>
      simp only [hl] at hr
      cases hf : nodes.find n with
      | none => simp [hf] at hr
      | some q =>
        obtain ⟨l, args⟩ := q
        simp only [hf, bind, Except.bind] at hr
        cases hm : mapS (getOut ap nodes k) (args.map (·.1)) (sat, s) with
        | error e => simp [hm] at hr
        | ok q =>
          obtain ⟨rs, sat1, s1⟩ := q
          have hP1 := mapS_inv P (getOut ap nodes k) _ (by
            intro m hm' sat s r sat' s' b c
            obtain ⟨b', hb', rfl⟩ := List.mem_map.mp hm'
            exact ih b'.1 sat s r sat' s' (Needed.parent n l args b' hn hf hb') b c) _ _ _ _ _ hP hm
          simp only [hm] at hr
          cases hp : pack rs with
          | error e => simp [hp] at hr
          | ok inps =>
            simp only [hp] at hr
            cases ha : ap n l inps s1 with
            | error e => simp [ha] at hr
            | ok q =>
              obtain ⟨o, s2⟩ := q
              simp only [ha, pure, Except.pure, Except.ok.injEq, Prod.mk.injEq] at hr
              obtain ⟨-, rfl, rfl⟩ := hr
              exact h n l args inps s1 _ _ hn hf hP1 ha

/-- every layer call of the source is made -/
theorem applyLayer_sites (ar : α → ℕ) (xf : Xf α) (hx : ∀ id name op l, xf id name op = .ok (.new l) → Acyc l) :
    ∀ l path site, CallSite l path site → WF l → ∀ k orig pre ins s o s',
      applyLayer ar xf k orig pre l ins s = .ok (o, s') →
      ∀ ch id' name' op', settle xf 1024 false site.1 site.2.1 site.2.2 = .ok (.layer ch id' name' op') →
      ∃ c ∈ s'.calls, c.path = pre ++ path ∧ c.op = op' := by
  intro l path site hcs
  induction hcs with
  | leaf id name op =>
    intro _ k orig pre ins s o s' hr ch id' name' op' hs
    cases k with
    | zero => simp [applyLayer] at hr
    | succ k =>
      rw [applyLayer] at hr
      simp only at hs
      simp only [hs, bind, Except.bind] at hr
      obtain ⟨nm, -, h2, -⟩ := callLeaf_eq hr
      exact ⟨⟨pre, nm, op', ins⟩, by simp [h2], by simp, rfl⟩
  | node inputs nodes outputs n l args path x hnd hni hf _ ih =>
    intro hwf k orig pre ins s o s' hr ch id' name' op' hs
    cases k with
    | zero => simp [applyLayer] at hr
    | succ k =>
      rw [applyLayer] at hr
      simp only [bind, Except.bind] at hr
      cases hwf with
      | model _ _ _ hd hinp hn =>
        obtain ⟨depth, hdep⟩ := hd
        generalize hsat : (inputs.zip (ins.map fun r => [r])).reverse = sat at hr
        have hz := zip_keys inputs ins
        rw [hsat] at hz
        cases hm : mapS (getOut (fun n l => applyLayer ar xf k orig (pre ++ [n]) l) nodes k) (outputs.map (·.1))
            (sat, s) with
        | error e => simp [hm] at hr
        | ok q =>
          obtain ⟨rs, sat1, s1⟩ := q
          obtain ⟨a1, n1, g1, g2, g3⟩ := mapS_adds pre (fun m => Needed nodes outputs m)
            (fun n l => applyLayer ar xf k orig (pre ++ [n]) l)
            nodes _ _ (fun n hn' sat s r sat' s' hr' => by
              obtain ⟨b, hb, rfl⟩ := List.mem_map.mp hn'
              obtain ⟨ad, nw, e1, e2, e3⟩ := getOut_adds pre (fun n l => applyLayer ar xf k orig (pre ++ [n]) l) nodes
                outputs depth hdep
                (fun n l args ins s o s' hf ha => applyLayer_paths ar xf hx k _ _ _ _ _ _ _ (hn n l args hf).acyc ha)
                k b.1 sat s r sat' s' (Needed.output b hb) hr'
              exact ⟨ad, nw, e1.weaken (fun _ h => h.2), e2, e3⟩) _ _ _ _ _ hm
          simp only [hm] at hr
          cases hpk : pack rs with
          | error e => simp [hpk] at hr
          | ok q =>
            simp only [hpk, pure, Except.pure, Except.ok.injEq, Prod.mk.injEq] at hr
            obtain ⟨-, rfl⟩ := hr
            have hkeys := g1.keys
            have hall : ∀ m, Needed nodes outputs m → m ∈ sat1.map (·.1) := by
              intro m hm'
              induction hm' with
              | output o ho => exact g2 _ (List.mem_map_of_mem ho)
              | parent m l args a _ hf ha ih =>
                rw [hkeys] at ih
                rcases List.mem_append.mp ih with ih | ih
                · obtain ⟨l', args', e1, e2, -⟩ := g3 m ih
                  rw [hf] at e1
                  cases e1
                  exact e2 a ha
                · rw [hinp m (hz m ih)] at hf; cases hf
            have hmem := hall n hnd
            rw [hkeys] at hmem
            rcases List.mem_append.mp hmem with hmem | hmem
            · obtain ⟨l', args', e1, -, ins', s0, o', s0', e3, e4⟩ := g3 n hmem
              rw [hf] at e1
              cases e1
              obtain ⟨c, hc, hc1, hc2⟩ := ih (hn n l args hf) k orig (pre ++ [n]) ins' s0 o' s0' e3 ch id' name' op' hs
              exact ⟨c, e4.subset hc, by simpa using hc1, hc2⟩
            · exact absurd (hz n hmem) hni

/-- every call made comes from a layer call of the source -/
theorem applyLayer_from (ar : α → ℕ) (xf : Xf α) (hx : ∀ id name op l, xf id name op = .ok (.new l) → Acyc l) :
    ∀ k orig pre l ins s o s', WF l → applyLayer ar xf k orig pre l ins s = .ok (o, s') →
      ∀ c ∈ s'.calls, c ∈ s.calls ∨ ∃ path site, CallSite l path site ∧ pre ++ path <+: c.path ∧
        ∀ ch id' name' op', settle xf 1024 false site.1 site.2.1 site.2.2 = .ok (.layer ch id' name' op') →
          c.path = pre ++ path ∧ c.op = op' := by
  intro k
  induction k with
  | zero => intro orig pre l ins s o s' _ hr; simp [applyLayer] at hr
  | succ k ih =>
    intro orig pre l ins s o s' hwf hr c hc
    cases l with
    | leaf id name op =>
      by_cases hcs : c ∈ s.calls
      · exact Or.inl hcs
      right
      refine ⟨[], (id, name, op), .leaf _ _ _, ?_, ?_⟩
      · obtain ⟨new, h1, -, h3⟩ := applyLayer_paths ar xf hx (k + 1) orig pre _ ins s o s' (Acyc.leaf id name op) hr
        rw [h1] at hc
        rcases List.mem_append.mp hc with hc | hc
        · exact absurd hc hcs
        · simpa using h3 c hc
      · intro ch id' name' op' hs
        rw [applyLayer] at hr
        simp only at hs
        simp only [hs, bind, Except.bind] at hr
        obtain ⟨nm, -, h2, -⟩ := callLeaf_eq hr
        rw [h2] at hc
        simp only [List.mem_append, List.mem_singleton] at hc
        rcases hc with hc | rfl
        · exact absurd hc hcs
        · simp
    | model inputs nodes outputs =>
      rw [applyLayer] at hr
      simp only [bind, Except.bind] at hr
      cases hwf with
      | model _ _ _ hd hinp hn =>
        generalize (inputs.zip (ins.map fun r => [r])).reverse = sat at hr
        cases hm : mapS (getOut (fun n l => applyLayer ar xf k orig (pre ++ [n]) l) nodes k) (outputs.map (·.1))
            (sat, s) with
        | error e => simp [hm] at hr
        | ok q =>
          obtain ⟨rs, sat1, s1⟩ := q
          simp only [hm] at hr
          cases hpk : pack rs with
          | error e => simp [hpk] at hr
          | ok q =>
            simp only [hpk, pure, Except.pure, Except.ok.injEq, Prod.mk.injEq] at hr
            obtain ⟨-, rfl⟩ := hr
            refine mapS_inv (fun s' : St α => ∀ c ∈ s'.calls, c ∈ s.calls ∨ ∃ path site,
              CallSite (.model inputs nodes outputs) path site ∧ pre ++ path <+: c.path ∧
              ∀ ch id' name' op', settle xf 1024 false site.1 site.2.1 site.2.2 = .ok (.layer ch id' name' op') →
              c.path = pre ++ path ∧ c.op = op') _ _ ?_ _ _ _ _ _ (fun c hc => Or.inl hc) hm c hc
            intro n hn' sat s1 r sat' s1' hP hg
            obtain ⟨b, hb, rfl⟩ := List.mem_map.mp hn'
            refine getOut_inv (fun s' : St α => ∀ c ∈ s'.calls, c ∈ s.calls ∨ ∃ path site,
              CallSite (.model inputs nodes outputs) path site ∧ pre ++ path <+: c.path ∧
              ∀ ch id' name' op', settle xf 1024 false site.1 site.2.1 site.2.2 = .ok (.layer ch id' name' op') →
              c.path = pre ++ path ∧ c.op = op') _ nodes outputs ?_ k b.1 sat s1 r sat' s1' (Needed.output b hb) hP hg
            intro n l args ins s2 o s2' hnd hf hP2 ha c hc
            rcases ih _ _ _ _ _ _ _ (hn n l args hf) ha c hc with h | ⟨path, site, h1, h2, h3⟩
            · exact hP2 c h
            · refine Or.inr ⟨n :: path, site, .node _ _ _ n l args path site hnd ?_ hf h1, by simpa using h2, ?_⟩
              · intro hi; rw [hinp n hi] at hf; cases hf
              · intro ch id' name' op' hs
                simpa using h3 ch id' name' op' hs

theorem settle_true (xf : Xf α) : ∀ g id name op ch id' name' op',
    settle xf g true id name op = .ok (.layer ch id' name' op') → ch = true := by
  intro g
  induction g with
  | zero =>
    intro id name op ch id' name' op' h
    unfold settle at h
    split at h <;> simp_all
  | succ g ih =>
    intro id name op ch id' name' op' h
    unfold settle at h
    split at h
    · simp at h
    · simp at h; exact h.1
    · simp at h
    · simp at h
    · exact ih _ _ _ _ _ _ _ h

theorem settle_unchanged (xf : Xf α) (g id : ℕ) (name : String) (op : α) (id' : ℕ) (name' : String) (op' : α)
    (h : settle xf g false id name op = .ok (.layer false id' name' op')) : xf id name op = .ok .same := by
  unfold settle at h
  split at h
  · simp at h
  · assumption
  · simp at h
  · split_ifs at h
    cases h
  · cases g with
    | zero => simp at h
    | succ g => have := settle_true xf _ _ _ _ _ _ _ _ h; cases this

/-- names of source layers are overwritten only where the transformer keeps the layer -/
theorem applyLayer_renamed (ar : α → ℕ) (xf : Xf α) :
    ∀ k orig pre l ins s o s', WF l ∨ orig = false →
      (orig = true → ∀ path site, CallSite l path site → xf site.1 site.2.1 site.2.2 ≠ .ok .same) →
      applyLayer ar xf k orig pre l ins s = .ok (o, s') → s'.renamed = s.renamed := by
  intro k
  induction k with
  | zero => intro orig pre l ins s o s' _ _ hr; simp [applyLayer] at hr
  | succ k ih =>
    intro orig pre l ins s o s' hwf hsame hr
    cases l with
    | leaf id name op =>
      rw [applyLayer] at hr
      cases hs : settle xf 1024 false id name op with
      | error e => simp [hs, bind, Except.bind] at hr
      | ok r =>
        simp only [hs, bind, Except.bind] at hr
        match r, hs with
        | .layer ch id' name' op', hs =>
          obtain ⟨nm, -, -, -, h4⟩ := callLeaf_eq hr
          rw [h4, if_neg]
          intro hc
          simp only [Bool.and_eq_true, Bool.not_eq_true'] at hc
          obtain ⟨h1, rfl⟩ := hc
          exact hsame h1 [] _ (.leaf id name op) (settle_unchanged xf _ _ _ _ _ _ _ hs)
        | .dropped, hs =>
          simp only [pure, Except.pure, Except.ok.injEq, Prod.mk.injEq] at hr
          rw [hr.2]
        | .toModel l, hs => exact ih false pre l ins s o s' (Or.inr rfl) (fun h => by cases h) hr
    | model inputs nodes outputs =>
      rw [applyLayer] at hr
      simp only [bind, Except.bind] at hr
      generalize (inputs.zip (ins.map fun r => [r])).reverse = sat at hr
      cases hm : mapS (getOut (fun n l => applyLayer ar xf k orig (pre ++ [n]) l) nodes k) (outputs.map (·.1))
          (sat, s) with
      | error e => simp [hm] at hr
      | ok q =>
        obtain ⟨rs, sat1, s1⟩ := q
        simp only [hm] at hr
        cases hpk : pack rs with
        | error e => simp [hpk] at hr
        | ok q =>
          simp only [hpk, pure, Except.pure, Except.ok.injEq, Prod.mk.injEq] at hr
          obtain ⟨-, rfl⟩ := hr
          refine mapS_inv (fun s' : St α => s'.renamed = s.renamed) _ _ ?_ _ _ _ _ _ rfl hm
          intro n hn' sat s1 r sat' s1' hP hg
          obtain ⟨b, hb, rfl⟩ := List.mem_map.mp hn'
          refine getOut_inv (fun s' : St α => s'.renamed = s.renamed) _ nodes outputs ?_ k b.1 sat s1 r sat' s1'
            (Needed.output b hb) hP hg
          intro n l args ins s2 o s2' hnd hf hP2 ha
          rw [ih orig _ l ins s2 o s2' ?_ ?_ ha, hP2]
          · rcases hwf with hwf | hwf
            · cases hwf with | model _ _ _ _ _ h => exact Or.inl (h n l args hf)
            · exact Or.inr hwf
          · intro ho path site hcs
            rcases hwf with hwf | hwf
            · cases hwf with
              | model _ _ _ _ hi h =>
                exact hsame ho (n :: path) site (.node _ _ _ n l args path site hnd
                  (fun hn => by rw [hi n hn] at hf; cases hf) hf hcs)
            · rw [ho] at hwf; cases hwf

end HGQ.Convert
