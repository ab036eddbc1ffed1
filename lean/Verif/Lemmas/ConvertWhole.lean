import Verif.Lemmas.Convert
import Verif.Spec.GraphWhole

/-!
Flattening computes `WholeEval`.
-/

namespace HGQ.Convert

variable {α V : Type} (sem : α → List V → Option (List V)) (xs : List V)

/-- invariant of `satisfied`, with any number of tensors per node -/
structure SatW (v : ℕ → List V) (inputs : List ℕ) (E : List (List V)) (sat : Sat) : Prop where
  vals : ∀ n r, sat.lookup n = some r → r.mapM (deref xs E) = some (v n)
  ins : ∀ n ∈ inputs, (sat.lookup n).isSome

theorem SatW.mono {v : ℕ → List V} {inputs : List ℕ} {E E' : List (List V)} {sat : Sat}
    (h : SatW xs v inputs E sat) (hE : E <+: E') : SatW xs v inputs E' sat :=
  ⟨fun n r hr => mapM_mono xs hE (h.vals n r hr), h.ins⟩

def GetW (v : ℕ → List V) (inputs : List ℕ) (n : ℕ)
    (f : Sat × St α → Except String (List Ref × (Sat × St α))) : Prop :=
  ∀ sat s E, evalCalls sem xs s.calls [] = some E → SatW xs v inputs E sat →
    ∃ r sat' s' E', f (sat, s) = .ok (r, (sat', s')) ∧ evalCalls sem xs s'.calls [] = some E' ∧ E <+: E' ∧
      SatW xs v inputs E' sat' ∧ r.mapM (deref xs E') = some (v n)

theorem mapS_whole (v : ℕ → List V) (inputs : List ℕ) (f : ℕ → Sat × St α → Except String (List Ref × (Sat × St α)))
    (ns : List ℕ) (h : ∀ n ∈ ns, GetW sem xs v inputs n (f n)) (sat : Sat) (s : St α) (E : List (List V))
    (hE : evalCalls sem xs s.calls [] = some E) (hs : SatW xs v inputs E sat) :
    ∃ rs sat' s' E', mapS f ns (sat, s) = .ok (rs, (sat', s')) ∧ evalCalls sem xs s'.calls [] = some E' ∧ E <+: E' ∧
      SatW xs v inputs E' sat' ∧ List.Forall₂ (fun r n => r.mapM (deref xs E') = some (v n)) rs ns := by
  induction ns generalizing sat s E with
  | nil => exact ⟨[], sat, s, E, rfl, hE, List.prefix_rfl, hs, .nil⟩
  | cons n ns ih =>
    obtain ⟨r, sat1, s1, E1, h1, h2, h3, h4, h5⟩ := h n (by simp) sat s E hE hs
    obtain ⟨rs, sat2, s2, E2, g1, g2, g3, g4, g5⟩ := ih (fun m hm => h m (by simp [hm])) sat1 s1 E1 h2 h4
    refine ⟨r :: rs, sat2, s2, E2, ?_, g2, h3.trans g3, g4, .cons (mapM_mono xs g3 h5) g5⟩
    rw [mapS, h1]
    simp only [bind, Except.bind]
    rw [g1]; rfl

theorem pack_whole {v : ℕ → List V} {E : List (List V)} {rs : List (List Ref)} {ns : List ℕ} {ws : List V}
    (h : List.Forall₂ (fun r n => r.mapM (deref xs E) = some (v n)) rs ns) (hj : joinAll (ns.map v) = some ws) :
    ∃ r, pack rs = .ok r ∧ r.mapM (deref xs E) = some ws := by
  have key : ∀ {rs : List (List Ref)} {ns : List ℕ}, List.Forall₂ (fun r n => r.mapM (deref xs E) = some (v n)) rs ns →
      (∀ l ∈ ns.map v, l.length = 1) → (rs.all fun x => x.length == 1) = true ∧
        rs.flatten.mapM (deref xs E) = some (ns.map v).flatten := by
    intro rs ns h
    induction h with
    | nil => intro _; exact ⟨rfl, by simp⟩
    | cons h1 _ ih =>
      intro hl
      obtain ⟨i1, i2⟩ := ih (fun l h => hl l (by rw [List.map_cons]; exact List.mem_cons_of_mem _ h))
      refine ⟨?_, ?_⟩
      · rw [List.all_cons, i1, Bool.and_true]
        have := hl _ (by rw [List.map_cons]; exact List.mem_cons_self ..)
        rw [← mapM_length xs h1] at this
        simpa using this
      · rw [List.flatten_cons, List.map_cons, List.flatten_cons]
        exact mapM_append xs h1 i2
  cases h with
  | nil => simp [joinAll] at hj; subst hj; exact ⟨[], by simp [pack], by simp⟩
  | @cons r n rs ns h1 h2 =>
    cases h2 with
    | nil =>
      simp only [List.map_cons, List.map_nil, joinAll, Option.some.injEq] at hj
      subst hj
      exact ⟨r, rfl, h1⟩
    | @cons r' n' rs ns h2 h3 =>
      simp only [List.map_cons, joinAll] at hj
      split_ifs at hj with hl
      obtain ⟨k1, k2⟩ := key (.cons h1 (.cons h2 h3)) (by simpa using hl)
      cases hj
      refine ⟨_, ?_, k2⟩
      simp only [pack]
      rw [if_pos k1]

theorem getOut_whole (apply : ℕ → Lay α → List Ref → St α → Except String (List Ref × St α)) (inputs : List ℕ)
    (nodes : NodeTab α) (outputs : List (ℕ × ℕ)) (v w : ℕ → List V) (depth : ℕ → ℕ)
    (hdep : ∀ n l args, nodes.find n = some (l, args) → ∀ a ∈ args, depth a.1 < depth n)
    (hclosed : ∀ n, Needed nodes outputs n → n ∈ inputs ∨ (nodes.find n).isSome)
    (hargs : ∀ n l args, Needed nodes outputs n → n ∉ inputs → nodes.find n = some (l, args) →
      joinAll (args.map fun a => v a.1) = some (w n))
    (happ : ∀ n l args, Needed nodes outputs n → n ∉ inputs → nodes.find n = some (l, args) →
      ApplyOK sem xs (apply n l) (w n) (v n)) :
    ∀ fuel n, Needed nodes outputs n → depth n < fuel → GetW sem xs v inputs n (getOut apply nodes fuel n) := by
  intro fuel
  induction fuel with
  | zero => intro n _ h; omega
  | succ fuel ih =>
    intro n hn hd sat s E hE hs
    rw [getOut]
    cases hl : sat.lookup n with
    | some r => exact ⟨r, sat, s, E, rfl, hE, List.prefix_rfl, hs, hs.vals n r hl⟩
    | none =>
      have hni : n ∉ inputs := fun hi => by
        have := hs.ins n hi
        rw [hl] at this
        cases this
      have hf := (hclosed n hn).resolve_left hni
      obtain ⟨⟨l, args⟩, hf⟩ := Option.isSome_iff_exists.mp hf
      simp only [hf]
      obtain ⟨rs, sat1, s1, E1, g1, g2, g3, g4, g5⟩ := mapS_whole sem xs v inputs (getOut apply nodes fuel)
        (args.map (·.1)) (fun m hm => by
          obtain ⟨a, ha, rfl⟩ := List.mem_map.mp hm
          exact ih a.1 (Needed.parent n l args a hn hf ha) (by have := hdep n l args hf a ha; omega)) sat s E hE hs
      rw [g1]
      simp only [bind, Except.bind, pure, Except.pure]
      obtain ⟨r, p1, p2⟩ := pack_whole xs g5 (by rw [List.map_map]; exact hargs n l args hn hni hf)
      rw [p1]
      simp only
      obtain ⟨outs, s2, E2, k1, k2, k3, k4⟩ := happ n l args hn hni hf _ _ _ g2 p2
      rw [k1]
      refine ⟨outs, (n, outs) :: sat1, s2, E2, rfl, k2, g3.trans k3, ⟨?_, ?_⟩, k4⟩
      · intro m r hr
        rw [List.lookup_cons] at hr
        by_cases hm : m = n
        · subst hm
          simp at hr
          subst hr
          exact k4
        · have : (m == n) = false := by simpa using hm
          rw [this] at hr
          exact (g4.mono xs k3).vals m r hr
      · intro m hm
        rw [List.lookup_cons]
        by_cases hmn : m = n
        · subst hmn; simp
        · have : (m == n) = false := by simpa using hmn
          rw [this]
          exact g4.ins m hm

/-- `apply_layer` on a layer or model, with a transformer that changes nothing -/
theorem apply_whole (ar : α → ℕ) (xf : Xf α) (hxf : ∀ id name op, xf id name op = .ok .same)
    (hlen : ∀ op vs ys, sem op vs = some ys → ys.length = ar op) {l : Lay α} {vals ys : List V} (hev : WholeEval sem l vals ys)
    (hb : BuiltOK l) : ∃ N, ∀ k, N ≤ k → ∀ orig path, ApplyOK sem xs (applyLayer ar xf k orig path l) vals ys := by
  classical
  induction hev with
  | leaf id name op vs ys h =>
    refine ⟨1, fun k hk orig path ins s E hE hins => ?_⟩
    obtain ⟨k, rfl⟩ : ∃ k', k = k' + 1 := ⟨k - 1, by omega⟩
    have h1 : settle xf 1024 false id name op = .ok (.layer false id name op) := by
      unfold settle; rw [hxf]
    rw [applyLayer]
    simp only [bind, Except.bind, h1]
    exact callLeaf_ok sem xs ar hlen _ path id name op vs ys h ins s E hE hins
  | model inputs nodes outputs vals ys v w hin hargs hnode hout ih =>
    cases hb with
    | model _ _ _ hg hb =>
    obtain ⟨depth, hdep⟩ := hg.acyclic
    have hN : ∀ n, ∃ N, ∀ l args, Needed nodes outputs n → n ∉ inputs → nodes.find n = some (l, args) →
        ∀ k, N ≤ k → ∀ orig path, ApplyOK sem xs (applyLayer ar xf k orig path l) (w n) (v n) := by
      intro n
      by_cases hc : Needed nodes outputs n ∧ n ∉ inputs ∧ (nodes.find n).isSome
      · obtain ⟨h1, h2, h3⟩ := hc
        obtain ⟨⟨l, args⟩, h3⟩ := Option.isSome_iff_exists.mp h3
        obtain ⟨N, hN⟩ := ih n l args h1 h2 h3 (hb n l args h3)
        refine ⟨N, fun l' args' _ _ h3' => ?_⟩
        rw [h3] at h3'
        cases h3'
        exact hN
      · refine ⟨0, fun l args h1 h2 h3 => absurd ⟨h1, h2, by rw [h3]; rfl⟩ hc⟩
    choose N hN using hN
    have hmax : ∀ (f : ℕ → ℕ) (l : List ℕ), ∃ B, ∀ n ∈ l, f n ≤ B := by
      intro f l
      induction l with
      | nil => exact ⟨0, by simp⟩
      | cons a l ih =>
        obtain ⟨B, hB⟩ := ih
        refine ⟨max (f a) B, fun n hn => ?_⟩
        rcases List.mem_cons.mp hn with rfl | hn
        · exact le_max_left _ _
        · exact (hB n hn).trans (le_max_right _ _)
    obtain ⟨B, hB⟩ := hmax N (nodes.map (·.1))
    obtain ⟨D, hD⟩ := hmax depth (outputs.map (·.1))
    refine ⟨max B (D + 1) + 1, fun k hk orig path ins s E hE hins => ?_⟩
    obtain ⟨k, rfl⟩ : ∃ k', k = k' + 1 := ⟨k - 1, by omega⟩
    have hkB : B ≤ k := by omega
    have hkD : D < k := by omega
    rw [applyLayer]
    have hget := getOut_whole sem xs (fun n l => applyLayer ar xf k orig (path ++ [n]) l) inputs nodes outputs v w depth hdep
      hg.closed hargs (fun n l args h1 h2 h3 =>
        hN n l args h1 h2 h3 k ((hB n (find_mem nodes h3)).trans hkB) orig _) k
    have hsat := sat_init xs inputs v vals ins E hin hins
    obtain ⟨rs, sat1, s1, E1, g1, g2, g3, g4, g5⟩ := mapS_whole sem xs v inputs _ (outputs.map (·.1))
      (fun m hm => by
        obtain ⟨o, ho', rfl⟩ := List.mem_map.mp hm
        exact hget o.1 (Needed.output o ho') (lt_of_le_of_lt (hD _ hm) hkD)) _ s E hE
      ⟨fun n r hr => (hsat.vals n r hr).1, hsat.ins⟩
    simp only [bind, Except.bind, pure, Except.pure]
    rw [g1]
    simp only
    obtain ⟨r, p1, p2⟩ := pack_whole xs g5 (by rw [List.map_map]; exact hout)
    rw [p1]
    exact ⟨r, s1, E1, rfl, g2, g3, p2⟩

/-- reading single tensors at index 0 is reading all of them -/
theorem joinAll_single {ls : List (ℕ × ℕ)} {v : ℕ → List V} {ws : List V} (h0 : ∀ a ∈ ls, a.2 = 0)
    (h1 : ∀ a ∈ ls, (v a.1).length = 1) (h : (ls.map fun a => (v a.1)[a.2]?) = ws.map some) :
    joinAll (ls.map fun a => v a.1) = some ws := by
  have key : (ls.map fun a => v a.1).flatten = ws := by
    induction ls generalizing ws with
    | nil => cases ws with
      | nil => rfl
      | cons _ _ => simp at h
    | cons a ls ih =>
      cases ws with
      | nil => simp at h
      | cons w ws =>
        simp only [List.map_cons, List.cons.injEq] at h
        obtain ⟨z, hz⟩ := List.length_eq_one_iff.mp (h1 a (by simp))
        have ha := h.1
        rw [h0 a (by simp), hz] at ha
        simp only [List.getElem?_cons_zero, Option.some.injEq] at ha
        rw [List.map_cons, List.flatten_cons, hz, ih (fun b hb => h0 b (by simp [hb])) (fun b hb => h1 b (by simp [hb])) h.2, ha]
        rfl
  unfold joinAll
  split
  · rename_i l hl
    rw [hl] at key
    simpa using key
  · rw [if_pos, key]
    intro l hl
    simp only [List.mem_map] at hl
    obtain ⟨a, ha, rfl⟩ := hl
    exact h1 a ha

/-- for models in which every call returns one tensor, `WholeEval` is the function of the model -/
theorem whole_of_eval (sem : α → List V → Option (List V)) (ar : α → ℕ)
    (hlen : ∀ op vs ys, sem op vs = some ys → ys.length = ar op) {l : Lay α} {xs ys : List V} (h : Eval sem l xs ys) :
    (∀ (inputs : List ℕ) (nodes : NodeTab α) (outputs : List (ℕ × ℕ)), l = .model inputs nodes outputs → GraphOK inputs nodes outputs ∧ (∀ o ∈ outputs, o.2 = 0) ∧
      (∀ n l args, nodes.find n = some (l, args) → ∀ a ∈ args, a.2 = 0) ∧
      ∀ n l args, nodes.find n = some (l, args) → SingleOut ar l) → WholeEval sem l xs ys := by
  induction h with
  | leaf a b c _ _ h => exact fun _ => .leaf a b c _ _ h
  | model inputs nodes outputs xs ys v w hin hargs hnode hout ih =>
    intro hm
    obtain ⟨hg, ho, h0, hso⟩ := hm _ _ _ rfl
    have hv : ∀ n, Needed nodes outputs n → (v n).length = 1 := by
      intro n hn
      by_cases hi : n ∈ inputs
      · have : v n ∈ xs.map fun x => [x] := by rw [← hin]; exact List.mem_map_of_mem hi
        simp only [List.mem_map] at this
        obtain ⟨x, -, hx⟩ := this
        rw [← hx]; rfl
      · rcases hg.closed n hn with h | h
        · exact absurd h hi
        · obtain ⟨⟨l, args⟩, hf⟩ := Option.isSome_iff_exists.mp h
          exact eval_single sem ar hlen (hso n l args hf) (hnode n l args hn hi hf)
    refine .model _ _ _ _ _ v w hin ?_ ?_ ?_
    · intro n l args hn hi hf
      exact joinAll_single (h0 n l args hf) (fun a ha => hv _ (.parent n l args a hn hf ha)) (hargs n l args hn hi hf)
    · intro n l args hn hi hf
      refine ih n l args hn hi hf ?_
      rintro i ns o rfl
      cases hso n _ args hf with | model _ _ _ _ h2 h3 h4 h5 => exact ⟨h2, h3, h4, h5⟩
    · exact joinAll_single ho (fun a ha => hv _ (.output a ha)) hout

end HGQ.Convert
