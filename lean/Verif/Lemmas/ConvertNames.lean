import Verif.Lemmas.ConvertSites

/-!
Lemmas for C70: the names given to the layers of a model that is flattened.
-/

namespace HGQ.Convert

variable {α : Type}

/-- names handed out for a sequence of calls (latest first) of the layers `id` named `name`, at nodes `path` -/
inductive Named : List (List ℕ × ℕ × String) → List String → List (ℕ × String) → Prop
  | nil : Named [] [] []
  | cons {es used ren} (path : List ℕ) (id : ℕ) (name nm : String) : Named es used ren →
      nextName used ((ren.lookup id).getD name) = some nm → Named ((path, id, name) :: es) (nm :: used) ((id, nm) :: ren)

/-- the calls made so far belong to calls `S` of the source, with the names of `Named` -/
def Inv (S : List ℕ → ℕ × String × α → Prop) (s : St α) : Prop :=
  ∃ es, (∀ e ∈ es, ∃ op, S e.1 (e.2.1, e.2.2, op)) ∧ es.map (·.1) = (s.calls.map (·.path)).reverse ∧ Named es s.used s.renamed

theorem applyLayer_named (ar : α → ℕ) (S : List ℕ → ℕ × String × α → Prop) :
    ∀ k pre l ins s o s', WF l → (∀ path site, CallSite l path site → S (pre ++ path) site) → Inv S s →
      applyLayer ar (fun _ _ _ => .ok .same) k true pre l ins s = .ok (o, s') → Inv S s' := by
  intro k
  induction k with
  | zero => intro pre l ins s o s' _ _ _ hr; simp [applyLayer] at hr
  | succ k ih =>
    intro pre l ins s o s' hwf hS hI hr
    cases l with
    | leaf id name op =>
      rw [applyLayer] at hr
      have hs : settle (fun _ _ _ => .ok .same) 1024 false id name op = .ok (.layer false id name op) := by rw [settle]
      simp only [hs, bind, Except.bind] at hr
      obtain ⟨nm, h1, h2, h3, h4⟩ := callLeaf_eq hr
      simp only [Bool.not_false, Bool.and_true, if_true] at h1 h4
      obtain ⟨es, e1, e2, e3⟩ := hI
      refine ⟨(pre, id, name) :: es, ?_, ?_, ?_⟩
      · intro e he
        rcases List.mem_cons.mp he with rfl | he
        · exact ⟨op, by simpa using hS [] _ (.leaf id name op)⟩
        · exact e1 e he
      · rw [h2]; simp [e2]
      · rw [h3, h4]; exact .cons pre id name nm e3 h1
    | model inputs nodes outputs =>
      rw [applyLayer] at hr
      simp only [bind, Except.bind] at hr
      generalize (inputs.zip (ins.map fun r => [r])).reverse = sat at hr
      cases hm : mapS (getOut (fun n l => applyLayer ar (fun _ _ _ => .ok .same) k true (pre ++ [n]) l) nodes k) (outputs.map (·.1))
          (sat, s) with
      | error e => simp [hm] at hr
      | ok q =>
        obtain ⟨rs, sat1, s1⟩ := q
        simp only [hm] at hr
        cases hpk : pack rs with
        | error e => simp [hpk] at hr
        | ok q =>
          simp only [hpk, pure, Except.pure, Except.ok.injEq, Prod.mk.injEq] at hr
          obtain ⟨-, rfl⟩ := hr
          refine mapS_inv (Inv S) _ _ ?_ _ _ _ _ _ hI hm
          intro n hn' sat s1 r sat' s1' hP hg
          obtain ⟨b, hb, rfl⟩ := List.mem_map.mp hn'
          refine getOut_inv (Inv S) _ nodes outputs ?_ k b.1 sat s1 r sat' s1' (Needed.output b hb) hP hg
          intro n l args ins s2 o s2' hnd hf hP2 ha
          cases hwf with
          | model _ _ _ _ hi h =>
            refine ih (pre ++ [n]) l ins s2 o s2' (h n l args hf) (fun path site hcs => ?_) hP2 ha
            have := hS (n :: path) site (.node _ _ _ n l args path site hnd (fun hn => by rw [hi n hn] at hf; cases hf) hf hcs)
            simpa using this

theorem lookup_mem {β : Type} {l : List (ℕ × β)} {i : ℕ} {b : β} (h : l.lookup i = some b) : (i, b) ∈ l := by
  induction l with
  | nil => cases h
  | cons p l ih =>
    obtain ⟨j, c⟩ := p
    rw [List.lookup_cons] at h
    by_cases hj : i == j
    · rw [hj] at h
      rw [eq_of_beq hj]
      cases h
      simp
    · rw [Bool.not_eq_true] at hj
      rw [hj] at h
      exact List.mem_cons_of_mem _ (ih h)

/-- if different calls have different names, all names are kept -/
theorem Named.kept {es : List (List ℕ × ℕ × String)} {used : List String} {ren : List (ℕ × String)} (h : Named es used ren)
    (hu : ∀ e ∈ es, ∀ e' ∈ es, e.2.2 = e'.2.2 → e.1 = e'.1) (ho : ∀ e ∈ es, ∀ e' ∈ es, e.2.1 = e'.2.1 → e.2.2 = e'.2.2)
    (hn : (es.map (·.1)).Nodup) : used = es.map (·.2.2) ∧ ren = es.map (·.2) := by
  induction h with
  | nil => exact ⟨rfl, rfl⟩
  | @cons es used ren path id name nm h hnm ih =>
    rw [List.map_cons, List.nodup_cons] at hn
    obtain ⟨rfl, rfl⟩ := ih (fun e he e' he' => hu e (by simp [he]) e' (by simp [he'])) (fun e he e' he' => ho e (by simp [he]) e' (by simp [he'])) hn.2
    have hnew : ∀ e ∈ es, e.2.2 ≠ name := by
      intro e he heq
      exact hn.1 (List.mem_map.mpr ⟨e, he, hu e (by simp [he]) (path, id, name) (by simp) heq⟩)
    have hl : (es.map (·.2)).lookup id = none := by
      cases hc : (es.map (·.2)).lookup id with
      | none => rfl
      | some b =>
        obtain ⟨e, he, hee⟩ := List.mem_map.mp (lookup_mem hc)
        exact absurd (ho e (by simp [he]) (path, id, name) (by simp) (by rw [hee])) (hnew e he)
    rw [hl, Option.getD_none, nextName, if_neg (fun hm => by
      obtain ⟨e, he, hee⟩ := List.mem_map.mp hm
      exact hnew e he hee)] at hnm
    cases hnm
    exact ⟨rfl, rfl⟩

theorem Named.fresh {es : List (List ℕ × ℕ × String)} {used : List String} {ren : List (ℕ × String)} (h : Named es used ren)
    (ho : ∀ e ∈ es, ∀ e' ∈ es, e.2.1 = e'.2.1 → e.2.2 = e'.2.2) :
    (∀ e ∈ es, e.2.2 ∈ used) ∧ (∀ r ∈ ren, ∃ e ∈ es, e.2.1 = r.1) ∧ ∀ e ∈ es, (ren.lookup e.2.1).isSome := by
  induction h with
  | nil => exact ⟨by simp, by simp, by simp⟩
  | @cons es used ren path id name nm h hnm ih =>
    obtain ⟨h1, h2, h3⟩ := ih fun e he e' he' => ho e (by simp [he]) e' (by simp [he'])
    refine ⟨fun e he => ?_, fun r hr => ?_, fun e he => ?_⟩
    · rcases List.mem_cons.mp he with rfl | he
      · by_cases hm : name ∈ used
        · exact List.mem_cons_of_mem _ hm
        · have hl : ren.lookup id = none := by
            cases hc : ren.lookup id with
            | none => rfl
            | some b =>
              obtain ⟨e, he', hee⟩ := h2 _ (lookup_mem hc)
              have hee' : e.2.2 = name := ho e (by simp [he']) (path, id, name) (by simp) hee
              exact absurd (hee' ▸ h1 e he') hm
          rw [hl, Option.getD_none, nextName, if_neg hm] at hnm
          cases hnm
          simp
      · exact List.mem_cons_of_mem _ (h1 e he)
    · rcases List.mem_cons.mp hr with rfl | hr
      · exact ⟨(path, id, name), by simp, rfl⟩
      · obtain ⟨e, he, hee⟩ := h2 r hr
        exact ⟨e, by simp [he], hee⟩
    · rw [List.lookup_cons]
      by_cases hj : e.2.1 == id
      · rw [hj]; rfl
      · rw [Bool.not_eq_true] at hj
        rw [hj]
        rcases List.mem_cons.mp he with rfl | he
        · simp at hj
        · exact h3 e he

/-- if two calls have the same name, the layer called later ends with another name -/
theorem Named.clash {es : List (List ℕ × ℕ × String)} {used : List String} {ren : List (ℕ × String)} (h : Named es used ren)
    (ho : ∀ e ∈ es, ∀ e' ∈ es, e.2.1 = e'.2.1 → e.2.2 = e'.2.2) :
    ∀ l₁ e₂ l₂ e₁, es = l₁ ++ e₂ :: l₂ → e₁ ∈ l₂ → e₁.2.2 = e₂.2.2 → ren.lookup e₂.2.1 ≠ some e₂.2.2 := by
  induction h with
  | nil => intro l₁ e₂ l₂ e₁ he; simp at he
  | @cons es used ren path id name nm h hnm ih =>
    have ho' : ∀ e ∈ es, ∀ e' ∈ es, e.2.1 = e'.2.1 → e.2.2 = e'.2.2 := fun e he e' he' => ho e (by simp [he]) e' (by simp [he'])
    have hfr := nextName_fresh _ _ _ hnm
    obtain ⟨h1, -, -⟩ := h.fresh ho'
    intro l₁ e₂ l₂ e₁ he hm hn
    have key : ∀ e ∈ es, e.2.2 = e₂.2.2 → nm ≠ e₂.2.2 := fun e hes hee hc => hfr (hc ▸ hee ▸ h1 e hes)
    rw [List.lookup_cons]
    cases l₁ with
    | nil =>
      rw [List.nil_append, List.cons.injEq] at he
      obtain ⟨rfl, rfl⟩ := he
      rw [beq_self_eq_true]
      intro hc
      injection hc with hc
      exact key e₁ hm hn hc
    | cons e l₁ =>
      rw [List.cons_append, List.cons.injEq] at he
      obtain ⟨rfl, rfl⟩ := he
      by_cases hj : e₂.2.1 == id
      · rw [hj]
        intro hc
        injection hc with hc
        exact key e₂ (by simp) rfl hc
      · rw [Bool.not_eq_true] at hj
        rw [hj]
        exact ih ho' l₁ e₂ l₂ e₁ rfl hm hn

end HGQ.Convert
