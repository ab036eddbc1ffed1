import Verif.Model.Shared
import Verif.Props.Net

/-!
Lemmas for models that call layers at several places.
-/

namespace HGQ

/-- the calls are calls of layers of the model, and layers with a kernel are called once -/
structure SNet.Valid (net : SNet) : Prop where
  layer : ∀ c ∈ net.calls, c.1 < net.layers.length
  kernel : ∀ l nd, net.layers[l]? = some nd → nd.hasKernel = true → net.uses l ≤ 1

/-- the node a call runs -/
def SNet.node (net : SNet) (l : ℕ) : Node := (net.layers[l]?).getD (.passive fun _ => [])

theorem SNet.layers_eq {net : SNet} {l : ℕ} (h : l < net.layers.length) : net.layers[l]? = some (net.node l) := by
  unfold SNet.node
  rw [List.getElem?_eq_getElem h]; rfl

/-- the same computation with one layer per call -/
def SNet.flat (net : SNet) (cs : List (ℕ × List ℕ)) : Net := cs.map fun c => (net.node c.1, c.2)

/-- the values quantizer element `e` of layer `l` outputs on a sample, before the activation -/
def SNet.Seen (net : SNet) (fbw : ℕ → ℕ → ℚ) : List (ℕ × List ℕ) → List (List ℚ) → ℕ → ℕ → ℚ → Prop
  | [], _, _, _, _ => False
  | (l, ins) :: cs, env, l', e, v =>
    (l' = l ∧ ∃ q, (net.node l).site = some q ∧ ∃ p < prodL q.outShape, q.elem p = e ∧
      v = (net.node l).quantAt q (fbw l) (gather env ins) p) ∨
    SNet.Seen net fbw cs (env ++ [(net.node l).out (fbw l) (gather env ins)]) l' e v

theorem zipWith_out (f : List (List ℚ) → List ℚ) (ins : List ℕ) (envs : List (List (List ℚ))) :
    List.zipWith (fun (env : List (List ℚ)) o => env ++ [o]) envs ((envs.map (gather · ins)).map f)
      = envs.map fun env => env ++ [f (gather env ins)] := by
  rw [List.map_map, List.zipWith_map_right]
  induction envs with
  | nil => rfl
  | cons a l ih => simp

theorem Node.after_mem {nd : Node} {s : QState} {insB : List (List (List ℚ))} {q : QSite} (hq : nd.site = some q) {e : ℕ} {v : ℚ}
    (h : (e, v) ∈ batchPairs q.elem ((insB.map (nd.pre s.fbw)).map (qSample q.conf q.elem s.fbw))) :
    ∃ ins ∈ insB, ∃ p < prodL q.outShape, q.elem p = e ∧ v = nd.quantAt q s.fbw ins p := by
  obtain ⟨y, hy, p, h1, h2⟩ := mem_batchPairs.mp h
  obtain ⟨x, hx, rfl⟩ := List.mem_map.mp hy
  obtain ⟨ins, hi, rfl⟩ := List.mem_map.mp hx
  have hpz : nd.pre s.fbw ins = (List.range (prodL q.outShape)).map (nd.preAt s.fbw ins) := by
    unfold Node.pre; rw [hq]
  rw [hpz, qSample_range, List.getElem?_map, Option.map_eq_some_iff] at h1
  obtain ⟨p', hp', rfl⟩ := h1
  have hlt : p < prodL q.outShape := by
    by_contra hc
    rw [List.getElem?_eq_none (by simpa using hc)] at hp'
    cases hp'
  rw [List.getElem?_range hlt] at hp'
  cases hp'
  exact ⟨ins, hi, p, hlt, h2, rfl⟩

/-- recorded extrema after a call were recorded before or occur in the batch -/
theorem Node.after_attained {nd : Node} {s : QState} {record : Bool} {insB : List (List (List ℚ))} {V : ℕ → ℚ → Prop}
    (h1 : ∀ e (v : ℚ), s.mn e = (v : WithTop ℚ) → V e v) (h2 : ∀ e (v : ℚ), s.mx e = (v : WithBot ℚ) → V e v)
    (hV : ∀ q, nd.site = some q → ∀ ins ∈ insB, ∀ p < prodL q.outShape, V (q.elem p) (nd.quantAt q s.fbw ins p)) :
    (∀ e (v : ℚ), (nd.after s record insB).mn e = (v : WithTop ℚ) → V e v) ∧
      (∀ e (v : ℚ), (nd.after s record insB).mx e = (v : WithBot ℚ) → V e v) := by
  unfold Node.after
  cases hs : nd.site with
  | none => exact ⟨h1, h2⟩
  | some q =>
    cases record with
    | false => exact ⟨h1, h2⟩
    | true =>
      simp only [if_true]
      refine ⟨fun e v hv => ?_, fun e v hv => ?_⟩
      · change min (reduceMin e _) (s.mn e) = _ at hv
        rcases min_choice (reduceMin e (batchPairs q.elem ((insB.map (nd.pre s.fbw)).map (qSample q.conf q.elem s.fbw)))) (s.mn e)
          with h' | h' <;> rw [h'] at hv
        · obtain ⟨ins, hi, p, hp, rfl, rfl⟩ := Node.after_mem hs (reduceMin_mem hv)
          exact hV q hs ins hi p hp
        · exact h1 e v hv
      · change max (reduceMax e _) (s.mx e) = _ at hv
        rcases max_choice (reduceMax e (batchPairs q.elem ((insB.map (nd.pre s.fbw)).map (qSample q.conf q.elem s.fbw)))) (s.mx e)
          with h' | h' <;> rw [h'] at hv
        · obtain ⟨ins, hi, p, hp, rfl, rfl⟩ := Node.after_mem hs (reduceMax_mem hv)
          exact hV q hs ins hi p hp
        · exact h2 e v hv

/-- recorded extrema satisfy `V` -/
def Attained (V : ℕ → ℚ → Prop) (s : QState) : Prop :=
  (∀ e (v : ℚ), s.mn e = (v : WithTop ℚ) → V e v) ∧ (∀ e (v : ℚ), s.mx e = (v : WithBot ℚ) → V e v)

theorem SNet.inRange_ext {net : SNet} {st st' : ℕ → QState} (h : ∀ l, Ext (st l) (st' l)) (cs : List (ℕ × List ℕ))
    {env : List (List ℚ)} (hr : (net.flat cs).InRange (cs.map fun c => st c.1) env) :
    (net.flat cs).InRange (cs.map fun c => st' c.1) env := by
  refine hr.ext ?_
  unfold ExtL
  rw [List.forall₂_map_left_iff, List.forall₂_map_right_iff]
  exact List.forall₂_same.mpr fun c _ => h c.1

/-- one batch through the calls `cs` -/
theorem SNet.callFrom_spec (record : Bool) {net : SNet} (hv : net.Valid) : ∀ (cs : List (ℕ × List ℕ)) (st : ℕ → QState)
    (envs : List (List (List ℚ))), (∀ c ∈ cs, c.1 < net.layers.length) → (∀ l, (net.node l).Clipped (st l)) →
    ∃ st', net.callFrom record cs st envs = .ok (st', envs.map ((net.flat cs).evalEnv (cs.map fun c => (st c.1).fbw))) ∧
      (∀ l, Ext (st l) (st' l)) ∧ (record = false → st' = st) ∧
      (record = true → ∀ env ∈ envs, (net.flat cs).InRange (cs.map fun c => st' c.1) env) ∧
      ((∀ l, GridState (st l)) → ∀ l, GridState (st' l)) ∧
      ∀ V : ℕ → ℕ → ℚ → Prop, (∀ l, Attained (V l) (st l)) →
        (∀ env ∈ envs, ∀ l e v, net.Seen (fun l => (st l).fbw) cs env l e v → V l e v) → ∀ l, Attained (V l) (st' l)
  | [], st, envs, _, _ => by
    refine ⟨st, ?_, fun l => Ext.refl _, fun _ => rfl, fun _ _ _ => trivial, fun h => h, fun V h _ => h⟩
    simp [SNet.callFrom, SNet.flat, Net.evalEnv]
  | (l, ins) :: cs, st, envs, hl, hc => by
    have hll : l < net.layers.length := hl (l, ins) (List.mem_cons_self ..)
    set nd := net.node l with hnd
    set s' := nd.after (st l) record (envs.map (gather · ins)) with hs'
    have hext : ∀ l', Ext (st l') (Function.update st l s' l') := by
      intro l'
      by_cases h : l' = l
      · subst h; rw [Function.update_self]; exact nd.after_ext _ _ _
      · rw [Function.update_of_ne h]; exact Ext.refl _
    have hfb : ∀ l', (Function.update st l s' l').fbw = (st l').fbw := fun l' => (hext l').fbw
    obtain ⟨st', h1, h2, h3, h4, h5, h6⟩ := SNet.callFrom_spec record hv cs (Function.update st l s')
      (List.zipWith (fun env o => env ++ [o]) envs ((envs.map (gather · ins)).map (nd.out (st l).fbw)))
      (fun c h => hl c (List.mem_cons_of_mem _ h)) (fun l' => clipped_ext _ _ _ (hc l') (hext l'))
    rw [zipWith_out] at h1 h4 h6
    simp only [hfb] at h1 h6
    refine ⟨st', ?_, fun l' => (hext l').trans (h2 l'), ?_, ?_, ?_, ?_⟩
    · unfold SNet.callFrom
      rw [SNet.layers_eq hll, ← hnd]
      simp only
      rw [Node.call_eq _ _ _ _ (hc l)]
      have hk : (nd.hasKernel && decide (1 < net.uses l)) = false := by
        cases hkk : nd.hasKernel with
        | false => rfl
        | true =>
          have := hv.kernel l nd (SNet.layers_eq hll) hkk
          simp; omega
      simp only [bind, Except.bind, hk, Bool.false_eq_true, if_false, pure, Except.pure]
      rw [zipWith_out, h1, List.map_map]
      rfl
    · intro hr
      rw [h3 hr]
      have : s' = st l := by
        rw [hs']; unfold Node.after
        cases nd.site <;> simp [hr]
      rw [this, Function.update_eq_self]
    · intro hr env henv
      refine ⟨?_, ?_⟩
      · have : nd.InRange s' (gather env ins) := by
          rw [hs', hr]; exact nd.after_inRange _ _ (List.mem_map.mpr ⟨env, henv, rfl⟩)
        refine this.ext ?_
        have h := h2 l
        rwa [Function.update_self] at h
      · have hf : (st' l).fbw = (st l).fbw := by rw [(h2 l).fbw, hfb]
        rw [hf]
        exact h4 hr _ (List.mem_map.mpr ⟨env, henv, rfl⟩)
    · intro hg
      apply h5
      intro l'
      by_cases h : l' = l
      · subst h; rw [Function.update_self]; exact nd.after_grid _ _ _ (hg _)
      · rw [Function.update_of_ne h]; exact hg l'
    · intro V hV hS
      apply h6 V
      · intro l'
        by_cases h : l' = l
        · subst h
          rw [Function.update_self]
          refine Node.after_attained (hV _).1 (hV _).2 ?_
          intro q hq i hi p hp
          obtain ⟨env, henv, rfl⟩ := List.mem_map.mp hi
          exact hS env henv l' _ _ (.inl ⟨rfl, q, hq, p, hp, rfl, rfl⟩)
        · rw [Function.update_of_ne h]; exact hV l'
      · intro env henv l' e v hs
        obtain ⟨env0, h0, rfl⟩ := List.mem_map.mp henv
        exact hS env0 h0 l' e v (.inr hs)

/-- the batch loop -/
theorem SNet.callBatches_spec (record : Bool) {net : SNet} (hv : net.Valid) : ∀ (bs : List (List (List (List ℚ)))) (st : ℕ → QState),
    (∀ l, (net.node l).Clipped (st l)) →
    ∃ st', net.callBatches record st bs =
        .ok (st', bs.flatten.map ((net.flat net.calls).evalEnv (net.calls.map fun c => (st c.1).fbw))) ∧
      (∀ l, Ext (st l) (st' l)) ∧
      (record = true → ∀ env ∈ bs.flatten, (net.flat net.calls).InRange (net.calls.map fun c => st' c.1) env) ∧
      ((∀ l, GridState (st l)) → ∀ l, GridState (st' l)) ∧
      ∀ V : ℕ → ℕ → ℚ → Prop, (∀ l, Attained (V l) (st l)) →
        (∀ env ∈ bs.flatten, ∀ l e v, net.Seen (fun l => (st l).fbw) net.calls env l e v → V l e v) →
        ∀ l, Attained (V l) (st' l)
  | [], st, h => ⟨st, by simp [SNet.callBatches], fun l => Ext.refl _, by simp, fun h => h, fun V h _ => h⟩
  | b :: bs, st, h => by
    obtain ⟨s1, h1, h2, -, h4, h5, h6⟩ := net.callFrom_spec record hv net.calls st b hv.layer h
    have hfb : ∀ l, (s1 l).fbw = (st l).fbw := fun l => (h2 l).fbw
    obtain ⟨s2, g1, g2, g4, g5, g6⟩ := SNet.callBatches_spec record hv bs s1 (fun l => clipped_ext _ _ _ (h l) (h2 l))
    simp only [hfb] at g1 g6
    refine ⟨s2, ?_, fun l => (h2 l).trans (g2 l), ?_, fun hg => g5 (h5 hg), ?_⟩
    · unfold SNet.callBatches SNet.call
      simp only [h1, g1, bind, Except.bind, pure, Except.pure]
      simp
    · intro hr env henv
      rw [List.flatten_cons, List.mem_append] at henv
      rcases henv with henv | henv
      · exact SNet.inRange_ext g2 _ (h4 hr env henv)
      · exact g4 hr env henv
    · intro V hV hS
      refine g6 V (h6 V hV fun env he => hS env ?_) fun env he => hS env ?_
      · simp [he]
      · rw [List.flatten_cons]; exact List.mem_append_right _ he

theorem SNet.predict_eq {net : SNet} (hv : net.Valid) {st : ℕ → QState} (h : ∀ l, (net.node l).Clipped (st l)) (x : List (List ℚ)) :
    net.predict st x = .ok ((net.flat net.calls).evalEnv (net.calls.map fun c => (st c.1).fbw) x) := by
  obtain ⟨st', h1, -⟩ := net.callFrom_spec false hv net.calls st [x] hv.layer h
  unfold SNet.predict SNet.call
  rw [h1]
  rfl

theorem SNet.toProxyFrom_eq {net : SNet} (S : Sat) (st : ℕ → QState) : ∀ (cs : List (ℕ × List ℕ)),
    (∀ c ∈ cs, c.1 < net.layers.length) → net.toProxyFrom S st cs = (net.flat cs).toProxy S (cs.map fun c => st c.1)
  | [], _ => rfl
  | (l, ins) :: cs, h => by
    have ih := SNet.toProxyFrom_eq S st cs fun c hc => h c (List.mem_cons_of_mem _ hc)
    unfold SNet.toProxyFrom
    rw [SNet.layers_eq (h (l, ins) (List.mem_cons_self ..)), ih]
    rfl

theorem SNet.all_of {net : SNet} {P : Node → QState → Prop} {st : ℕ → QState} (h : ∀ l, P (net.node l) (st l)) :
    ∀ cs : List (ℕ × List ℕ), (net.flat cs).All P (cs.map fun c => st c.1)
  | [] => trivial
  | (l, _) :: cs => ⟨h l, SNet.all_of h cs⟩

theorem SNet.all_mem {net : SNet} {P : Node → QState → Prop} {st : ℕ → QState} :
    ∀ cs : List (ℕ × List ℕ), (∀ c ∈ cs, P (net.node c.1) (st c.1)) → (net.flat cs).All P (cs.map fun c => st c.1)
  | [], _ => trivial
  | c :: cs, h => ⟨h c (List.mem_cons_self ..), SNet.all_mem cs fun c hc => h c (List.mem_cons_of_mem _ hc)⟩

theorem SNet.adjust_eq (net : SNet) (st : ℕ → QState) (l : ℕ) : net.adjust st l = (net.node l).adjust (st l) := by
  unfold SNet.adjust SNet.node
  cases net.layers[l]? <;> rfl

theorem SNet.adjustAll_eq (net : SNet) (st : ℕ → QState) : ∀ cs : List (ℕ × List ℕ),
    adjustAll (net.flat cs) (cs.map fun c => st c.1) = cs.map fun c => net.adjust st c.1
  | [] => rfl
  | (l, _) :: cs => by
    change _ :: adjustAll (net.flat cs) (cs.map fun c => st c.1) = _ :: _
    rw [SNet.adjustAll_eq net st cs]
    simp only [SNet.adjust_eq]

theorem SNet.trace_spec {net : SNet} (hv : net.Valid) (st : ℕ → QState) (bsz : ℕ) (data : List (List (List ℚ)))
    (hw : ∀ l, (net.node l).WF (st l)) (hb : 0 < bsz) :
    ∃ st1, net.trace st bsz data = .ok (net.adjust st1, data.map ((net.flat net.calls).evalEnv (net.calls.map fun c => (st c.1).fbw))) ∧
      (∀ l, (st1 l).fbw = (st l).fbw) ∧ (∀ l, (net.node l).WF (st1 l)) ∧ (∀ l, GridState (st1 l)) ∧
      (∀ x ∈ data, (net.flat net.calls).InRange (net.calls.map fun c => st1 c.1) x) ∧
      ∀ V : ℕ → ℕ → ℚ → Prop,
        (∀ env ∈ data, ∀ l e v, net.Seen (fun l => (st l).fbw) net.calls env l e v → V l e v) →
        ∀ l, Attained (V l) (st1 l) := by
  obtain ⟨s1, h1, h2, h4, h5, h6⟩ := net.callBatches_spec true hv (chunks bsz data) (fun l => (st l).reset)
    (fun l => (hw l).clip)
  rw [chunks_flatten bsz hb] at h1 h4 h6
  refine ⟨s1, ?_, fun l => (h2 l).fbw, fun l => (hw l).congr (h2 l).fbw, h5 fun l => gridState_reset _, h4 rfl, ?_⟩
  · unfold SNet.trace
    rw [h1]
    rfl
  · intro V hV
    apply h6 V
    · intro l
      exact ⟨fun e v h => by simp [QState.reset] at h, fun e v h => by simp [QState.reset] at h⟩
    · exact hV

/-- position `k` of the calls: its output is tensor `env.length + k` -/
theorem SNet.evalEnv_get {net : SNet} (fbw : ℕ → ℕ → ℚ) : ∀ (cs : List (ℕ × List ℕ)) (env : List (List ℚ)),
    ∃ outs, (net.flat cs).evalEnv (cs.map fun c => fbw c.1) env = env ++ outs ∧ outs.length = cs.length ∧
      ∀ l e v, net.Seen fbw cs env l e v → ∃ k ins, cs[k]? = some (l, ins) ∧ ∃ q, (net.node l).site = some q ∧
        ∃ p < prodL q.outShape, q.elem p = e ∧ ((net.node l).hasKernel = false → (outs.getD k []).getD p 0 = v)
  | [], env => ⟨[], by simp [SNet.flat, Net.evalEnv], rfl, fun _ _ _ h => h.elim⟩
  | (l, ins) :: cs, env => by
    obtain ⟨outs, h1, h2, h3⟩ := SNet.evalEnv_get (net := net) fbw cs (env ++ [(net.node l).out (fbw l) (gather env ins)])
    refine ⟨(net.node l).out (fbw l) (gather env ins) :: outs, ?_, by simp [h2], ?_⟩
    · change (net.flat cs).evalEnv (cs.map fun c => fbw c.1) (env ++ [(net.node l).out (fbw l) (gather env ins)]) = _
      rw [h1]; simp
    · intro l' e v hs
      rcases hs with ⟨rfl, q, hq, p, hp, he, hv⟩ | hs
      · refine ⟨0, ins, rfl, q, hq, p, hp, he, fun hk => ?_⟩
        rw [hv]
        have hpost : ∀ x, (net.node l').post x = x := by
          intro x
          cases hn : net.node l' <;> first | rfl | (rw [hn] at hk; cases hk)
        change ((net.node l').out (fbw l') (gather env ins)).getD p 0 = _
        unfold Node.out
        rw [hq]
        simp only [hpost]
        rw [List.getD_eq_getElem?_getD, List.getElem?_map, List.getElem?_range hp]
        rfl
      · obtain ⟨k, i, hk, q, hq, p, hp, he, h⟩ := h3 l' e v hs
        exact ⟨k + 1, i, hk, q, hq, p, hp, he, h⟩

/-- every value output by a call is seen -/
theorem SNet.seen_of {net : SNet} (fbw : ℕ → ℕ → ℚ) {P : ℕ → ℕ → ℚ → Prop} : ∀ (cs : List (ℕ × List ℕ)) (env : List (List ℚ)),
    (∀ l e v, net.Seen fbw cs env l e v → P l e v) → ∀ k l ins, cs[k]? = some (l, ins) → ∀ q, (net.node l).site = some q →
    (net.node l).hasKernel = false → ∀ p < prodL q.outShape,
      P l (q.elem p) ((((net.flat cs).evalEnv (cs.map fun c => fbw c.1) env).getD (env.length + k) []).getD p 0)
  | [], _, _, k, _, _, h => by simp at h
  | (l0, ins0) :: cs, env, hP, k, l, ins, hk => by
    intro q hq hker p hp
    change P l (q.elem p) ((((net.flat cs).evalEnv (cs.map fun c => fbw c.1)
      (env ++ [(net.node l0).out (fbw l0) (gather env ins0)])).getD (env.length + k) []).getD p 0)
    cases k with
    | zero =>
      simp only [List.getElem?_cons_zero, Option.some.injEq, Prod.mk.injEq] at hk
      obtain ⟨rfl, rfl⟩ := hk
      obtain ⟨outs, h1, -, -⟩ := SNet.evalEnv_get (net := net) fbw cs (env ++ [(net.node l0).out (fbw l0) (gather env ins0)])
      rw [h1]
      have hpost : ∀ x, (net.node l0).post x = x := by
        intro x
        cases hn : net.node l0 <;> first | rfl | (rw [hn] at hker; cases hker)
      have : ((env ++ [(net.node l0).out (fbw l0) (gather env ins0)]) ++ outs).getD (env.length + 0) []
          = (net.node l0).out (fbw l0) (gather env ins0) := by
        simp [List.getD_eq_getElem?_getD]
      rw [this]
      have h2 : ((net.node l0).out (fbw l0) (gather env ins0)).getD p 0 = (net.node l0).quantAt q (fbw l0) (gather env ins0) p := by
        unfold Node.out
        rw [hq]
        simp only [hpost]
        rw [List.getD_eq_getElem?_getD, List.getElem?_map, List.getElem?_range hp]
        rfl
      rw [h2]
      exact hP _ _ _ (.inl ⟨rfl, q, hq, p, hp, rfl, rfl⟩)
    | succ k =>
      have ih := SNet.seen_of fbw (P := P) cs (env ++ [(net.node l0).out (fbw l0) (gather env ins0)])
        (fun l e v h => hP l e v (.inr h)) k l ins (by simpa using hk) q hq hker p hp
      have hlen : (env ++ [(net.node l0).out (fbw l0) (gather env ins0)]).length + k = env.length + (k + 1) := by
        simp; omega
      rw [hlen] at ih
      exact ih

theorem SNet.seen_inRange {net : SNet} {st : ℕ → QState} : ∀ (cs : List (ℕ × List ℕ)) (env : List (List ℚ)),
    (net.flat cs).InRange (cs.map fun c => st c.1) env → ∀ l e v, net.Seen (fun l => (st l).fbw) cs env l e v →
      (st l).mn e ≤ ((v : ℚ) : WithTop ℚ) ∧ ((v : ℚ) : WithBot ℚ) ≤ (st l).mx e
  | [], _, _, _, _, _, h => h.elim
  | (l0, ins) :: cs, env, hr, l, e, v, hs => by
    rcases hs with ⟨rfl, q, hq, p, hp, rfl, rfl⟩ | hs
    · exact hr.1 q hq p hp
    · exact SNet.seen_inRange cs _ hr.2 l e v hs

theorem SNet.wf_node {net : SNet} {st : ℕ → QState} (h : ∀ (l : ℕ) (nd : Node), net.layers[l]? = some nd → nd.WF (st l)) (l : ℕ) :
    (net.node l).WF (st l) := by
  cases hl : net.layers[l]? with
  | some nd =>
    have : net.node l = nd := by unfold SNet.node; rw [hl]; rfl
    rw [this]; exact h l nd hl
  | none =>
    have : net.node l = .passive fun _ => [] := by unfold SNet.node; rw [hl]; rfl
    rw [this]
    exact ⟨(fun _ h => nomatch h), (fun _ h => nomatch h), (fun _ h => nomatch h), (fun _ h => nomatch h), (fun _ _ _ h => nomatch h)⟩

end HGQ
