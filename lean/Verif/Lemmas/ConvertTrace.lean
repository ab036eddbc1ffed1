import Verif.Lemmas.Convert

/-!
Lemmas about what a conversion does: depth bounds do not matter, which nodes it visits, the names it gives.
-/

namespace HGQ.Convert

section Mono
variable {α : Type}

theorem mapS_mono {β γ σ : Type} (f g : β → σ → Except String (γ × σ)) (h : ∀ b s r, f b s = .ok r → g b s = .ok r) :
    ∀ l s r, mapS f l s = .ok r → mapS g l s = .ok r := by
  intro l
  induction l with
  | nil => intro s r hr; exact hr
  | cons b l ih =>
    intro s r hr
    rw [mapS] at hr ⊢
    cases h1 : f b s with
    | error e => simp [h1, bind, Except.bind] at hr
    | ok p =>
      rw [h b s p h1]
      simp only [h1, bind, Except.bind] at hr ⊢
      cases h2 : mapS f l p.2 with
      | error e => simp [h2] at hr
      | ok q =>
        rw [ih _ _ h2]
        simpa [h2] using hr

theorem getOut_mono (ap ap' : ℕ → Lay α → List Ref → St α → Except String (List Ref × St α)) (nodes : NodeTab α)
    (h : ∀ n l ins s r, ap n l ins s = .ok r → ap' n l ins s = .ok r) :
    ∀ k k', k ≤ k' → ∀ n st r, getOut ap nodes k n st = .ok r → getOut ap' nodes k' n st = .ok r := by
  intro k
  induction k with
  | zero => intro k' _ n st r hr; simp [getOut] at hr
  | succ k ih =>
    intro k' hk n st r hr
    obtain ⟨k', rfl⟩ : ∃ j, k' = j + 1 := ⟨k' - 1, by omega⟩
    obtain ⟨sat, s⟩ := st
    rw [getOut] at hr ⊢
    cases hl : sat.lookup n with
    | some q => simpa [hl] using hr
    | none =>
      simp only [hl] at hr ⊢
      cases hf : nodes.find n with
      | none => simp [hf] at hr
      | some e =>
        obtain ⟨l, args⟩ := e
        simp only [hf, bind, Except.bind] at hr ⊢
        cases hm : mapS (getOut ap nodes k) (args.map (·.1)) (sat, s) with
        | error e => simp [hm] at hr
        | ok p =>
          rw [mapS_mono _ _ (fun b s r => ih k' (by omega) b s r) _ _ _ hm]
          simp only [hm] at hr ⊢
          cases hp : pack p.1 with
          | error e => simp [hp] at hr
          | ok q =>
            simp only [hp] at hr ⊢
            cases ha : ap n l q p.2.2 with
            | error e => simp [ha] at hr
            | ok u =>
              rw [h _ _ _ _ _ ha]
              simpa [ha] using hr

theorem applyLayer_mono (ar : α → ℕ) (xf : Xf α) : ∀ k k', k ≤ k' → ∀ orig path l ins s r,
    applyLayer ar xf k orig path l ins s = .ok r → applyLayer ar xf k' orig path l ins s = .ok r := by
  intro k
  induction k with
  | zero => intro k' _ orig path l ins s r hr; simp [applyLayer] at hr
  | succ k ih =>
    intro k' hk orig path l ins s r hr
    obtain ⟨k', rfl⟩ : ∃ j, k' = j + 1 := ⟨k' - 1, by omega⟩
    cases l with
    | leaf id name op =>
      rw [applyLayer] at hr ⊢
      cases hs : settle xf 1024 false id name op with
      | error e => simp [hs, bind, Except.bind] at hr
      | ok q =>
        simp only [hs, bind, Except.bind] at hr ⊢
        match q with
        | .layer _ _ _ _ => exact hr
        | .dropped => exact hr
        | .toModel l' => exact ih k' (by omega) _ _ _ _ _ _ hr
    | model inputs nodes outputs =>
      rw [applyLayer] at hr ⊢
      simp only [bind, Except.bind] at hr ⊢
      cases hm : mapS (getOut (fun n l => applyLayer ar xf k orig (path ++ [n]) l) nodes k) (outputs.map (·.1))
          ((inputs.zip (ins.map fun r => [r])).reverse, s) with
      | error e => simp [hm] at hr
      | ok p =>
        rw [mapS_mono _ _ (fun b s r => getOut_mono _ _ nodes
          (fun n l ins s r => ih k' (by omega) orig (path ++ [n]) l ins s r) k k' (by omega) b s r) _ _ _ hm]
        simpa [hm] using hr

end Mono

/-! A generic induction: a relation on conversion states kept by every layer call -/

section Inv
variable {α : Type}

theorem mapS_rel {β γ σ : Type} (R : σ → σ → Prop) (hrefl : ∀ s, R s s) (htr : ∀ a b c, R a b → R b c → R a c)
    (f : β → σ → Except String (γ × σ)) (h : ∀ b s c s', f b s = .ok (c, s') → R s s') :
    ∀ l s cs s', mapS f l s = .ok (cs, s') → R s s' := by
  intro l
  induction l with
  | nil => intro s cs s' hr; simp [mapS] at hr; rw [hr.2]; exact hrefl _
  | cons b l ih =>
    intro s cs s' hr
    rw [mapS] at hr
    cases h1 : f b s with
    | error e => simp [h1, bind, Except.bind] at hr
    | ok p =>
      obtain ⟨c, s1⟩ := p
      simp only [h1, bind, Except.bind] at hr
      cases h2 : mapS f l s1 with
      | error e => simp [h2] at hr
      | ok q =>
        obtain ⟨cs', s2⟩ := q
        simp only [h2, pure, Except.pure, Except.ok.injEq, Prod.mk.injEq] at hr
        rw [← hr.2]
        exact htr _ _ _ (h _ _ _ _ h1) (ih _ _ _ h2)

theorem getOut_rel (R : St α → St α → Prop) (hrefl : ∀ s, R s s) (htr : ∀ a b c, R a b → R b c → R a c)
    (ap : ℕ → Lay α → List Ref → St α → Except String (List Ref × St α)) (nodes : NodeTab α)
    (h : ∀ n l args ins s o s', nodes.find n = some (l, args) → ap n l ins s = .ok (o, s') → R s s') :
    ∀ k n sat s r sat' s', getOut ap nodes k n (sat, s) = .ok (r, (sat', s')) → R s s' := by
  intro k
  induction k with
  | zero => intro n sat s r sat' s' hr; simp [getOut] at hr
  | succ k ih =>
    intro n sat s r sat' s' hr
    rw [getOut] at hr
    cases hl : sat.lookup n with
    | some q => simp [hl] at hr; rw [hr.2.2]; exact hrefl _
    | none =>
      simp only [hl] at hr
      cases hf : nodes.find n with
      | none => simp [hf] at hr
      | some e =>
        obtain ⟨l, args⟩ := e
        simp only [hf, bind, Except.bind] at hr
        cases hm : mapS (getOut ap nodes k) (args.map (·.1)) (sat, s) with
        | error e => simp [hm] at hr
        | ok p =>
          obtain ⟨rs, sat1, s1⟩ := p
          have h1 : R s s1 := mapS_rel (fun a b : Sat × St α => R a.2 b.2) (fun _ => hrefl _)
            (fun _ _ _ => htr _ _ _) _ (fun b st c st' hb => ih b st.1 st.2 c st'.1 st'.2 hb) _ _ _ _ hm
          simp only [hm] at hr
          cases hp : pack rs with
          | error e => simp [hp] at hr
          | ok q =>
            simp only [hp] at hr
            cases ha : ap n l q s1 with
            | error e => simp [ha] at hr
            | ok u =>
              obtain ⟨o, s2⟩ := u
              simp only [ha, pure, Except.pure, Except.ok.injEq, Prod.mk.injEq] at hr
              rw [← hr.2.2]
              exact htr _ _ _ h1 (h _ _ _ _ _ _ _ hf ha)

theorem applyLayer_rel (ar : α → ℕ) (xf : Xf α) (R : St α → St α → Prop) (hrefl : ∀ s, R s s)
    (htr : ∀ a b c, R a b → R b c → R a c)
    (hcall : ∀ ch id name op id' name' op', settle xf 1024 false id name op = .ok (.layer ch id' name' op') →
      ∀ orig path ins s o s', callLeaf ar (orig && !ch) path id' name' op' ins s = .ok (o, s') → R s s') :
    ∀ k orig path l ins s o s', applyLayer ar xf k orig path l ins s = .ok (o, s') → R s s' := by
  intro k
  induction k with
  | zero => intro orig path l ins s o s' hr; simp [applyLayer] at hr
  | succ k ih =>
    intro orig path l ins s o s' hr
    cases l with
    | leaf id name op =>
      rw [applyLayer] at hr
      cases hs : settle xf 1024 false id name op with
      | error e => simp [hs, bind, Except.bind] at hr
      | ok q =>
        simp only [hs, bind, Except.bind] at hr
        match q, hs with
        | .layer ch id' name' op', hs => exact hcall _ _ _ _ _ _ _ hs _ _ _ _ _ _ hr
        | .dropped, _ =>
          simp only [pure, Except.pure, Except.ok.injEq, Prod.mk.injEq] at hr
          rw [hr.2]; exact hrefl _
        | .toModel l', _ => exact ih _ _ _ _ _ _ _ hr
    | model inputs nodes outputs =>
      rw [applyLayer] at hr
      simp only [bind, Except.bind] at hr
      cases hm : mapS (getOut (fun n l => applyLayer ar xf k orig (path ++ [n]) l) nodes k) (outputs.map (·.1))
          ((inputs.zip (ins.map fun r => [r])).reverse, s) with
      | error e => simp [hm] at hr
      | ok p =>
        obtain ⟨rs, sat1, s1⟩ := p
        have h1 : R s s1 := mapS_rel (fun a b : Sat × St α => R a.2 b.2) (fun _ => hrefl _) (fun _ _ _ => htr _ _ _) _
          (fun b st c st' hb => getOut_rel R hrefl htr _ nodes
            (fun n l args ins s o s' _ ha => ih _ _ _ _ _ _ _ ha) k b st.1 st.2 c st'.1 st'.2 hb) _ _ _ _ hm
        simp only [hm] at hr
        cases hp : pack rs with
        | error e => simp [hp] at hr
        | ok q =>
          simp only [hp, pure, Except.pure, Except.ok.injEq, Prod.mk.injEq] at hr
          rw [← hr.2]; exact h1

end Inv

/-! Which nodes are visited -/

section Visit
variable {α : Type}

/-- what a piece of conversion at `path`, over the nodes `ns` (bounded by `P`), adds to the state -/
structure Adds (path : List ℕ) (P : ℕ → Prop) (sat sat' : Sat) (s s' : St α) (added : List ℕ) (new : List (Call α)) :
    Prop where
  calls : s'.calls = s.calls ++ new
  keys : sat'.map (·.1) = added ++ sat.map (·.1)
  nodup : added.Nodup
  fresh : ∀ m ∈ added, m ∉ sat.map (·.1)
  bound : ∀ m ∈ added, P m
  paths : (new.map (·.path)).Nodup
  from_ : ∀ c ∈ new, ∃ m ∈ added, path ++ [m] <+: c.path

theorem Adds.refl (path : List ℕ) (P : ℕ → Prop) (sat : Sat) (s : St α) : Adds path P sat sat s s [] [] :=
  ⟨by simp, by simp, by simp, by simp, by simp, by simp, by simp⟩

theorem prefix_snoc_inj {path : List ℕ} {m m' : ℕ} {q : List ℕ} (h : path ++ [m] <+: q) (h' : path ++ [m'] <+: q) :
    m = m' := by
  obtain ⟨t, rfl⟩ := h
  obtain ⟨t', ht⟩ := h'
  simp only [List.append_assoc, List.append_cancel_left_eq, List.singleton_append, List.cons.injEq] at ht
  exact ht.1.symm

theorem Adds.trans {path : List ℕ} {P : ℕ → Prop} {sat sat1 sat2 : Sat} {s s1 s2 : St α} {a1 a2 : List ℕ}
    {n1 n2 : List (Call α)} (h1 : Adds path P sat sat1 s s1 a1 n1) (h2 : Adds path P sat1 sat2 s1 s2 a2 n2) :
    Adds path P sat sat2 s s2 (a2 ++ a1) (n1 ++ n2) := by
  have hdis : ∀ m ∈ a2, m ∉ a1 := fun m hm hm1 => h2.fresh m hm (by rw [h1.keys]; simp [hm1])
  refine ⟨by rw [h2.calls, h1.calls, List.append_assoc], by rw [h2.keys, h1.keys, List.append_assoc], ?_, ?_, ?_, ?_, ?_⟩
  · exact List.nodup_append.mpr ⟨h2.nodup, h1.nodup, fun a ha b hb hab => hdis a ha (hab ▸ hb)⟩
  · intro m hm hc
    rcases List.mem_append.mp hm with hm | hm
    · exact h2.fresh m hm (by rw [h1.keys]; exact List.mem_append_right _ hc)
    · exact h1.fresh m hm hc
  · intro m hm
    rcases List.mem_append.mp hm with hm | hm
    · exact h2.bound m hm
    · exact h1.bound m hm
  · rw [List.map_append]
    refine List.nodup_append.mpr ⟨h1.paths, h2.paths, fun a ha b hb hab => ?_⟩
    obtain ⟨c, hc, rfl⟩ := List.mem_map.mp ha
    obtain ⟨d, hd, rfl⟩ := List.mem_map.mp hb
    obtain ⟨m, hm, hp⟩ := h1.from_ c hc
    obtain ⟨m', hm', hp'⟩ := h2.from_ d hd
    rw [← hab] at hp'
    have := prefix_snoc_inj hp hp'
    subst this
    exact hdis m hm' hm
  · intro c hc
    rcases List.mem_append.mp hc with hc | hc
    · obtain ⟨m, hm, hp⟩ := h1.from_ c hc
      exact ⟨m, List.mem_append_right _ hm, hp⟩
    · obtain ⟨m, hm, hp⟩ := h2.from_ c hc
      exact ⟨m, List.mem_append_left _ hm, hp⟩

theorem Adds.weaken {path : List ℕ} {P Q : ℕ → Prop} {sat sat1 : Sat} {s s1 : St α} {a1 : List ℕ}
    {n1 : List (Call α)} (h : Adds path P sat sat1 s s1 a1 n1) (hPQ : ∀ m, P m → Q m) : Adds path Q sat sat1 s s1 a1 n1 :=
  ⟨h.calls, h.keys, h.nodup, h.fresh, fun m hm => hPQ m (h.bound m hm), h.paths, h.from_⟩

theorem lookup_none_keys {sat : Sat} {n : ℕ} (h : sat.lookup n = none) : n ∉ sat.map (·.1) := by
  induction sat with
  | nil => simp
  | cons p sat ih =>
    obtain ⟨a, b⟩ := p
    rw [List.lookup_cons] at h
    by_cases ha : n = a
    · subst ha; simp at h
    · have hb : (n == a) = false := by simpa using ha
      rw [hb] at h
      simp only [List.map_cons, List.mem_cons, not_or]
      exact ⟨ha, ih h⟩

theorem lookup_some_keys {sat : Sat} {n : ℕ} {r : List Ref} (h : sat.lookup n = some r) : n ∈ sat.map (·.1) := by
  by_contra hc
  have : sat.lookup n = none := by
    clear h
    induction sat with
    | nil => rfl
    | cons p sat ih =>
      obtain ⟨a, b⟩ := p
      simp only [List.map_cons, List.mem_cons, not_or] at hc
      rw [List.lookup_cons]
      have hb : (n == a) = false := by simpa using hc.1
      rw [hb]
      exact ih hc.2
  rw [this] at h
  cases h

/-- every satisfied node has its parents satisfied, and its layer was applied -/
def Closed (ap : ℕ → Lay α → List Ref → St α → Except String (List Ref × St α)) (nodes : NodeTab α) (keys added : List ℕ)
    (calls : List (Call α)) : Prop :=
  ∀ m ∈ added, ∃ l args, nodes.find m = some (l, args) ∧ (∀ a ∈ args, a.1 ∈ keys) ∧
    ∃ ins s o s', ap m l ins s = .ok (o, s') ∧ s'.calls <+: calls

theorem mapS_adds (path : List ℕ) (P : ℕ → Prop)
    (ap : ℕ → Lay α → List Ref → St α → Except String (List Ref × St α)) (nodes : NodeTab α)
    (f : ℕ → Sat × St α → Except String (List Ref × (Sat × St α))) : ∀ (ns : List ℕ),
    (∀ n ∈ ns, ∀ sat s r sat' s', f n (sat, s) = .ok (r, (sat', s')) →
      ∃ added new, Adds path P sat sat' s s' added new ∧ n ∈ sat'.map (·.1) ∧
        Closed ap nodes (sat'.map (·.1)) added s'.calls) →
    ∀ sat s rs sat' s', mapS f ns (sat, s) = .ok (rs, (sat', s')) →
      ∃ added new, Adds path P sat sat' s s' added new ∧ (∀ n ∈ ns, n ∈ sat'.map (·.1)) ∧
        Closed ap nodes (sat'.map (·.1)) added s'.calls := by
  intro ns
  induction ns with
  | nil =>
    intro _ sat s rs sat' s' hr
    simp only [mapS, Except.ok.injEq, Prod.mk.injEq] at hr
    obtain ⟨-, rfl, rfl⟩ := hr
    exact ⟨[], [], Adds.refl _ _ _ _, by simp, fun m hm => by simp at hm⟩
  | cons n ns ih =>
    intro h sat s rs sat' s' hr
    rw [mapS] at hr
    cases h1 : f n (sat, s) with
    | error e => simp [h1, bind, Except.bind] at hr
    | ok p =>
      obtain ⟨c, sat1, s1⟩ := p
      simp only [h1, bind, Except.bind] at hr
      cases h2 : mapS f ns (sat1, s1) with
      | error e => simp [h2] at hr
      | ok q =>
        obtain ⟨cs', sat2, s2⟩ := q
        simp only [h2, pure, Except.pure, Except.ok.injEq, Prod.mk.injEq] at hr
        obtain ⟨-, rfl, rfl⟩ := hr
        obtain ⟨a1, n1, k1, k2, k3⟩ := h n (by simp) _ _ _ _ _ h1
        obtain ⟨a2, n2, g1, g2, g3⟩ := ih (fun m hm => h m (by simp [hm])) _ _ _ _ _ h2
        refine ⟨_, _, k1.trans g1, ?_, ?_⟩
        · intro m hm
          rcases List.mem_cons.mp hm with rfl | hm
          · rw [g1.keys]; exact List.mem_append_right _ k2
          · exact g2 m hm
        · intro m hm
          rcases List.mem_append.mp hm with hm | hm
          · exact g3 m hm
          · obtain ⟨l, args, e1, e2, ins, t, o, t', e3, e4⟩ := k3 m hm
            refine ⟨l, args, e1, fun a ha => ?_, ins, t, o, t', e3, ?_⟩
            · rw [g1.keys]; exact List.mem_append_right _ (e2 a ha)
            · rw [g1.calls]; exact e4.trans (List.prefix_append _ _)

theorem getOut_adds (path : List ℕ) (ap : ℕ → Lay α → List Ref → St α → Except String (List Ref × St α))
    (nodes : NodeTab α) (outputs : List (ℕ × ℕ)) (depth : ℕ → ℕ)
    (hdep : ∀ n l args, nodes.find n = some (l, args) → ∀ a ∈ args, depth a.1 < depth n)
    (h : ∀ n l args ins s o s', nodes.find n = some (l, args) → ap n l ins s = .ok (o, s') →
      ∃ new, s'.calls = s.calls ++ new ∧ (new.map (·.path)).Nodup ∧ ∀ c ∈ new, path ++ [n] <+: c.path) :
    ∀ k n sat s r sat' s', Needed nodes outputs n → getOut ap nodes k n (sat, s) = .ok (r, (sat', s')) →
      ∃ added new, Adds path (fun m => depth m ≤ depth n ∧ Needed nodes outputs m) sat sat' s s' added new ∧
        n ∈ sat'.map (·.1) ∧ Closed ap nodes (sat'.map (·.1)) added s'.calls := by
  intro k
  induction k with
  | zero => intro n sat s r sat' s' _ hr; simp [getOut] at hr
  | succ k ih =>
    intro n sat s r sat' s' hn hr
    rw [getOut] at hr
    cases hl : sat.lookup n with
    | some q =>
      simp only [hl, Except.ok.injEq, Prod.mk.injEq] at hr
      obtain ⟨-, rfl, rfl⟩ := hr
      exact ⟨[], [], Adds.refl _ _ _ _, lookup_some_keys hl, fun m hm => by simp at hm⟩
    | none =>
      simp only [hl] at hr
      cases hf : nodes.find n with
      | none => simp [hf] at hr
      | some e =>
        obtain ⟨l, args⟩ := e
        simp only [hf, bind, Except.bind] at hr
        cases hm : mapS (getOut ap nodes k) (args.map (·.1)) (sat, s) with
        | error e => simp [hm] at hr
        | ok p =>
          obtain ⟨rs, sat1, s1⟩ := p
          obtain ⟨a1, n1, g1, g2, g3⟩ := mapS_adds path (fun m => depth m < depth n ∧ Needed nodes outputs m) ap nodes
            (getOut ap nodes k) (args.map (·.1)) (fun m hm' sat s r sat' s' hr' => by
              obtain ⟨a, ha, rfl⟩ := List.mem_map.mp hm'
              have hd := hdep n l args hf a ha
              obtain ⟨ad, nw, e1, e2, e3⟩ := ih a.1 sat s r sat' s' (Needed.parent n l args a hn hf ha) hr'
              exact ⟨ad, nw, e1.weaken (fun m hm => ⟨lt_of_le_of_lt hm.1 hd, hm.2⟩), e2, e3⟩) _ _ _ _ _ hm
          simp only [hm] at hr
          cases hp : pack rs with
          | error e => simp [hp] at hr
          | ok q =>
            simp only [hp] at hr
            cases ha : ap n l q s1 with
            | error e => simp [ha] at hr
            | ok u =>
              obtain ⟨o, s2⟩ := u
              simp only [ha, pure, Except.pure, Except.ok.injEq, Prod.mk.injEq] at hr
              obtain ⟨-, rfl, rfl⟩ := hr
              obtain ⟨n2, c1, c2, c3⟩ := h _ _ _ _ _ _ _ hf ha
              have hfresh : n ∉ sat1.map (·.1) := by
                rw [g1.keys]
                intro hc
                rcases List.mem_append.mp hc with hc | hc
                · have := (g1.bound n hc).1; omega
                · exact lookup_none_keys hl hc
              have hstep : Adds path (fun m => depth m ≤ depth n ∧ Needed nodes outputs m) sat1 ((n, o) :: sat1) s1 s2
                  [n] n2 :=
                ⟨c1, by simp, by simp, by simpa using hfresh, by simpa using hn, c2, fun c hc => ⟨n, by simp, c3 c hc⟩⟩
              refine ⟨_, _, (g1.weaken (fun m hm => ⟨le_of_lt hm.1, hm.2⟩)).trans hstep, by simp, ?_⟩
              intro m hm
              rcases List.mem_append.mp hm with hm | hm
              · rw [List.mem_singleton] at hm
                subst hm
                refine ⟨l, args, hf, fun a ha' => ?_, q, s1, o, s2, ha, List.prefix_rfl⟩
                rw [List.map_cons]
                exact List.mem_cons_of_mem _ (g2 a.1 (List.mem_map_of_mem ha'))
              · obtain ⟨l', args', e1, e2, ins, t, o', t', e3, e4⟩ := g3 m hm
                refine ⟨l', args', e1, fun a ha' => ?_, ins, t, o', t', e3, ?_⟩
                · rw [List.map_cons]
                  exact List.mem_cons_of_mem _ (e2 a ha')
                · rw [c1]; exact e4.trans (List.prefix_append _ _)

theorem settle_toModel_acyc (xf : Xf α) (hx : ∀ id name op l, xf id name op = .ok (.new l) → Acyc l) :
    ∀ g ch id name op l, settle xf g ch id name op = .ok (.toModel l) → Acyc l := by
  intro g
  induction g with
  | zero =>
    intro ch id name op l h
    unfold settle at h
    cases hr : xf id name op with
    | error e => simp [hr] at h
    | ok r =>
      match r, hr with
      | .same, hr => simp [hr] at h
      | .drop, hr => simp [hr] at h
      | .new (.leaf _ _ _), hr => simp [hr] at h
      | .new (.model i ns o), hr => simp [hr] at h; rw [← h]; exact hx _ _ _ _ hr
  | succ g ih =>
    intro ch id name op l h
    unfold settle at h
    cases hr : xf id name op with
    | error e => simp [hr] at h
    | ok r =>
      match r, hr with
      | .same, hr => simp [hr] at h
      | .drop, hr => simp [hr] at h
      | .new (.leaf _ _ _), hr => simp only [hr] at h; exact ih _ _ _ _ _ h
      | .new (.model i ns o), hr => simp [hr] at h; rw [← h]; exact hx _ _ _ _ hr

/-- the calls made while applying a layer come from different places below it -/
theorem applyLayer_paths (ar : α → ℕ) (xf : Xf α) (hx : ∀ id name op l, xf id name op = .ok (.new l) → Acyc l) :
    ∀ k orig path l ins s o s', Acyc l → applyLayer ar xf k orig path l ins s = .ok (o, s') →
      ∃ new, s'.calls = s.calls ++ new ∧ (new.map (·.path)).Nodup ∧ ∀ c ∈ new, path <+: c.path := by
  intro k
  induction k with
  | zero => intro orig path l ins s o s' _ hr; simp [applyLayer] at hr
  | succ k ih =>
    intro orig path l ins s o s' hl hr
    cases l with
    | leaf id name op =>
      rw [applyLayer] at hr
      cases hs : settle xf 1024 false id name op with
      | error e => simp [hs, bind, Except.bind] at hr
      | ok q =>
        simp only [hs, bind, Except.bind] at hr
        match q, hs with
        | .layer ch id' name' op', hs =>
          simp only [callLeaf] at hr
          split at hr
          · cases hr
          · simp only [Except.ok.injEq, Prod.mk.injEq] at hr
            refine ⟨_, by rw [← hr.2], by simp, ?_⟩
            intro c hc
            rw [List.mem_singleton] at hc
            rw [hc]
            exact List.prefix_rfl
        | .dropped, _ =>
          simp only [pure, Except.pure, Except.ok.injEq, Prod.mk.injEq] at hr
          exact ⟨[], by rw [hr.2]; simp, by simp, by simp⟩
        | .toModel l', hs => exact ih _ _ _ _ _ _ _ (settle_toModel_acyc xf hx _ _ _ _ _ _ hs) hr
    | model inputs nodes outputs =>
      rw [applyLayer] at hr
      simp only [bind, Except.bind] at hr
      cases hl with
      | model _ _ _ hd hn =>
        obtain ⟨depth, hdep⟩ := hd
        cases hm : mapS (getOut (fun n l => applyLayer ar xf k orig (path ++ [n]) l) nodes k) (outputs.map (·.1))
            ((inputs.zip (ins.map fun r => [r])).reverse, s) with
        | error e => simp [hm] at hr
        | ok p =>
          obtain ⟨rs, sat1, s1⟩ := p
          obtain ⟨a1, n1, g1, -, -⟩ := mapS_adds path (fun _ => True) (fun n l => applyLayer ar xf k orig (path ++ [n]) l)
            nodes _ _ (fun n hn' sat s r sat' s' hr' => by
              obtain ⟨b, hb, rfl⟩ := List.mem_map.mp hn'
              obtain ⟨ad, nw, e1, e2, e3⟩ := getOut_adds path (fun n l => applyLayer ar xf k orig (path ++ [n]) l) nodes
                outputs depth hdep (fun n l args ins s o s' hf ha => ih _ _ _ _ _ _ _ (hn n l args hf) ha) k b.1 sat s r
                sat' s' (Needed.output b hb) hr'
              exact ⟨ad, nw, e1.weaken (fun _ _ => trivial), e2, e3⟩) _ _ _ _ _ hm
          simp only [hm] at hr
          cases hp : pack rs with
          | error e => simp [hp] at hr
          | ok q =>
            simp only [hp, pure, Except.pure, Except.ok.injEq, Prod.mk.injEq] at hr
            rw [← hr.2]
            refine ⟨n1, g1.calls, g1.paths, fun c hc => ?_⟩
            obtain ⟨m, -, hp⟩ := g1.from_ c hc
            exact (List.prefix_append _ _).trans hp

end Visit

end HGQ.Convert
