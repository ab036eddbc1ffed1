import Verif.Props.Net

/-!
The ranges recorded by `trace_minmax` are reached: the recorded minimum and maximum of every element are values the quantizer
takes on some calibration sample.
-/

namespace HGQ

open Spec

/-- the recorded ranges of the node are values it takes on these inputs -/
def Node.Attained (nd : Node) (s : QState) (insB : List (List (List ℚ))) : Prop :=
  ∀ q, nd.site = some q → ∀ e,
    (∀ v : ℚ, s.mn e = (v : WithTop ℚ) → ∃ ins ∈ insB, ∃ p < prodL q.outShape, q.elem p = e ∧ nd.quantAt q s.fbw ins p = v) ∧
    (∀ v : ℚ, s.mx e = (v : WithBot ℚ) → ∃ ins ∈ insB, ∃ p < prodL q.outShape, q.elem p = e ∧ nd.quantAt q s.fbw ins p = v)

theorem Node.Attained.reset (nd : Node) (s : QState) : nd.Attained s.reset [] := by
  intro q _ e
  constructor
  · intro v hv
    change (⊤ : WithTop ℚ) = v at hv
    exact absurd hv (by simp)
  · intro v hv
    change (⊥ : WithBot ℚ) = v at hv
    exact absurd hv (by simp)

theorem batch_mem {nd : Node} {q : QSite} (hq : nd.site = some q) {s : QState} {insB : List (List (List ℚ))} {e : ℕ} {v : ℚ}
    (h : (e, v) ∈ batchPairs q.elem ((insB.map (nd.pre s.fbw)).map (qSample q.conf q.elem s.fbw))) :
    ∃ ins ∈ insB, ∃ p < prodL q.outShape, q.elem p = e ∧ nd.quantAt q s.fbw ins p = v := by
  obtain ⟨sm, hsm, p, hp, he⟩ := mem_batchPairs.mp h
  obtain ⟨z, hz, rfl⟩ := List.mem_map.mp hsm
  obtain ⟨ins, hins, rfl⟩ := List.mem_map.mp hz
  have hpz : nd.pre s.fbw ins = (List.range (prodL q.outShape)).map (nd.preAt s.fbw ins) := by
    unfold Node.pre; rw [hq]
  rw [hpz, qSample_range, List.getElem?_map] at hp
  rcases Nat.lt_or_ge p (prodL q.outShape) with hlt | hge
  · rw [List.getElem?_range hlt] at hp
    simp only [Option.map_some, Option.some.injEq] at hp
    exact ⟨ins, hins, p, hlt, he, hp⟩
  · rw [List.getElem?_eq_none (by simpa using hge)] at hp
    simp at hp

theorem Node.Attained.after {nd : Node} {s : QState} {D : List (List (List ℚ))} (h : nd.Attained s D) (insB : List (List (List ℚ))) :
    nd.Attained (nd.after s true insB) (D ++ insB) := by
  intro q hq e
  rw [(nd.after_ext s true insB).fbw]
  have he : nd.after s true insB = s.record q.elem ((insB.map (nd.pre s.fbw)).map (qSample q.conf q.elem s.fbw)) := by
    unfold Node.after; rw [hq]; rfl
  rw [he]
  obtain ⟨h1, h2⟩ := h q hq e
  constructor
  · intro v hv
    change min (reduceMin e _) (s.mn e) = _ at hv
    rcases min_choice (reduceMin e (batchPairs q.elem ((insB.map (nd.pre s.fbw)).map (qSample q.conf q.elem s.fbw)))) (s.mn e) with h' | h'
    · rw [h'] at hv
      obtain ⟨ins, hi, hr⟩ := batch_mem hq (reduceMin_mem hv)
      exact ⟨ins, List.mem_append_right _ hi, hr⟩
    · rw [h'] at hv
      obtain ⟨ins, hi, hr⟩ := h1 v hv
      exact ⟨ins, List.mem_append_left _ hi, hr⟩
  · intro v hv
    change max (reduceMax e _) (s.mx e) = _ at hv
    rcases max_choice (reduceMax e (batchPairs q.elem ((insB.map (nd.pre s.fbw)).map (qSample q.conf q.elem s.fbw)))) (s.mx e) with h' | h'
    · rw [h'] at hv
      obtain ⟨ins, hi, hr⟩ := batch_mem hq (reduceMax_mem hv)
      exact ⟨ins, List.mem_append_right _ hi, hr⟩
    · rw [h'] at hv
      obtain ⟨ins, hi, hr⟩ := h2 v hv
      exact ⟨ins, List.mem_append_left _ hi, hr⟩

/-- the recorded ranges of all nodes are values they take on these samples -/
def Net.Attained : Net → List QState → List (List (List ℚ)) → Prop
  | (nd, ins) :: rest, s :: ss, D =>
    nd.Attained s (D.map (gather · ins)) ∧ Net.Attained rest ss (D.map fun env => env ++ [nd.out s.fbw (gather env ins)])
  | _, _, _ => True

theorem Net.Attained.reset : ∀ (net : Net) (ss : List QState), net.Attained (ss.map QState.reset) []
  | [], _ => by unfold Net.Attained; trivial
  | (nd, ins) :: net, [] => trivial
  | (nd, ins) :: net, s :: ss => ⟨Node.Attained.reset nd s, by simpa using Net.Attained.reset net ss⟩

theorem Net.Attained.call : ∀ {net : Net} {ss ss' : List QState} {D envs o : List (List (List ℚ))}, net.All Node.Clipped ss →
    net.Attained ss D → net.call true ss envs = .ok (ss', o) → net.Attained ss' (D ++ envs)
  | [], _, _, _, _, _, _, _, _ => by unfold Net.Attained; trivial
  | (nd, ins) :: net, [], _, _, _, _, hc, _, _ => hc.elim
  | (nd, ins) :: net, s :: ss, ss', D, envs, o, hc, h, hr => by
    unfold Net.call at hr
    rw [Node.call_eq _ _ _ _ hc.1] at hr
    simp only [bind, Except.bind] at hr
    have hz : List.zipWith (fun (env : List (List ℚ)) o => env ++ [o]) envs ((envs.map (gather · ins)).map (nd.out s.fbw))
        = envs.map fun env => env ++ [nd.out s.fbw (gather env ins)] := by
      rw [List.map_map, List.zipWith_map_right]
      clear hr
      induction envs with
      | nil => rfl
      | cons a l ih => simp
    rw [hz] at hr
    cases hn : Net.call true net ss (envs.map fun env => env ++ [nd.out s.fbw (gather env ins)]) with
    | error e => rw [hn] at hr; cases hr
    | ok r =>
      obtain ⟨s1, o1⟩ := r
      rw [hn] at hr
      cases hr
      have ih := Net.Attained.call hc.2 h.2 hn
      refine ⟨?_, ?_⟩
      · rw [List.map_append]
        exact Node.Attained.after h.1 _
      · rw [(nd.after_ext s true _).fbw, List.map_append]
        exact ih

theorem Net.Attained.batches : ∀ {net : Net} {bs : List (List (List (List ℚ)))} {ss ss' : List QState} {D o : List (List (List ℚ))},
    net.All Node.Clipped ss → net.Attained ss D → net.callBatches true ss bs = .ok (ss', o) → net.Attained ss' (D ++ bs.flatten)
  | net, [], ss, ss', D, o, hc, h, hr => by
    cases hr
    simpa using h
  | net, b :: bs, ss, ss', D, o, hc, h, hr => by
    unfold Net.callBatches at hr
    simp only [bind, Except.bind] at hr
    obtain ⟨s1, h1, h2, -⟩ := net.call_spec true ss b hc
    rw [h1] at hr
    simp only at hr
    cases hn : net.callBatches true s1 bs with
    | error e => rw [hn] at hr; cases hr
    | ok r =>
      obtain ⟨s2, o2⟩ := r
      rw [hn] at hr
      cases hr
      have := Net.Attained.batches (Net.All.ext clipped_ext hc h2) (Net.Attained.call hc h h1) hn
      rw [List.flatten_cons, ← List.append_assoc]
      exact this

/-- the range of this node is not adjusted after recording -/
def Node.unadjusted : Node → Bool
  | .activation .softmax _ _ | .activation .sigmoid _ _ | .activation .tanh _ _ => false
  | _ => true

theorem adjust_unadjusted {nd : Node} (h : nd.unadjusted = true) (s : QState) : nd.adjust s = s := by
  unfold Node.adjust
  split
  · cases h
  · cases h
  · cases h
  · rfl

/-- the recorded ranges of all nodes whose range is not adjusted are values they take on these samples -/
def Net.AttainedU : Net → List QState → List (List (List ℚ)) → Prop
  | (nd, ins) :: rest, s :: ss, D =>
    (nd.unadjusted = true → nd.Attained s (D.map (gather · ins))) ∧
      Net.AttainedU rest ss (D.map fun env => env ++ [nd.out s.fbw (gather env ins)])
  | _, _, _ => True

theorem Net.Attained.adjust : ∀ {net : Net} {ss : List QState} {D : List (List (List ℚ))}, net.Attained ss D →
    net.AttainedU (adjustAll net ss) D
  | [], _, _, _ => by unfold Net.AttainedU; simp
  | (nd, ins) :: net, [], _, _ => by unfold adjustAll; simp [Net.AttainedU]
  | (nd, ins) :: net, s :: ss, D, h => by
    change (_ → nd.Attained (nd.adjust s) _) ∧ Net.AttainedU net (adjustAll net ss) _
    refine ⟨fun hu => by rw [adjust_unadjusted hu]; exact h.1, ?_⟩
    rw [adjust_fbw]
    exact Net.Attained.adjust h.2

/-- After `trace_minmax` the recorded minimum and maximum of every element of every quantizer are taken on some calibration sample
(softmax, sigmoid and tanh layers, whose ranges are adjusted, apart). -/
theorem trace_attained {net : Net} {ss ss' : List QState} {bsz : ℕ} {data preds : List (List (List ℚ))} (hw : net.All Node.WF ss)
    (hb : 0 < bsz) (h : net.trace ss bsz data = .ok (ss', preds)) : net.AttainedU ss' data := by
  unfold Net.trace at h
  simp only [bind, Except.bind] at h
  cases hc : net.callBatches true (ss.map QState.reset) (chunks bsz data) with
  | error e => rw [hc] at h; cases h
  | ok r =>
    obtain ⟨s1, o1⟩ := r
    rw [hc] at h
    cases h
    obtain ⟨r1, -, -⟩ := reset_all hw
    have := Net.Attained.batches (all_imp (fun _ _ h => h.clip) r1) (Net.Attained.reset net ss) hc
    rw [chunks_flatten bsz hb, List.nil_append] at this
    exact Net.Attained.adjust this

end HGQ
