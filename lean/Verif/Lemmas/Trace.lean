import Verif.Model.Trace
import Verif.Props.Net

namespace HGQ
open Spec

/-! ### recording a batch in parts -/

theorem Node.after_append (nd : Node) (s : QState) (r : Bool) (a b : List (List (List ℚ))) :
    nd.after (nd.after s r a) r b = nd.after s r (a ++ b) := by
  have hf := (nd.after_ext s r a).fbw
  unfold Node.after at *
  cases hs : nd.site with
  | none => rfl
  | some q =>
    rw [hs] at hf
    cases r
    · rfl
    · simp only [if_true] at *
      rw [hf, record_append]
      simp

theorem Node.after_nil (nd : Node) (s : QState) (r : Bool) : nd.after s r [] = s := by
  unfold Node.after
  cases nd.site with
  | none => rfl
  | some q => cases r <;> simp [record_nil]

/-! ### running a network -/

/-- states after running on some samples -/
def Net.afterL : Net → List LState → List (List (List ℚ)) → List LState
  | (nd, ins) :: rest, s :: ss, envs =>
    ⟨nd.after s.q s.recording (envs.map (gather · ins)), s.recording⟩ ::
      Net.afterL rest ss (envs.map fun env => env ++ [nd.out s.q.fbw (gather env ins)])
  | _, _, _ => []

/-- a predicate on (node, state) holds for all nodes, and there is a state for every node -/
def Net.AllS (P : Node → LState → Prop) : Net → List LState → Prop
  | [], [] => True
  | (nd, _) :: rest, s :: ss => P nd s ∧ Net.AllS P rest ss
  | _, _ => False

theorem allS_iff (P : Node → QState → Prop) : ∀ (net : Net) (ss : List LState),
    net.AllS (fun nd s => P nd s.q) ss ↔ net.All P (ss.map LState.q)
  | [], [] => Iff.rfl
  | [], _ :: _ => Iff.rfl
  | _ :: _, [] => Iff.rfl
  | (_, _) :: rest, _ :: ss => and_congr Iff.rfl (allS_iff P rest ss)

theorem Net.AllS.imp {P Q : Node → LState → Prop} (h : ∀ nd s, P nd s → Q nd s) :
    ∀ {net : Net} {ss : List LState}, net.AllS P ss → net.AllS Q ss
  | [], [], _ => trivial
  | (_, _) :: _, _ :: _, hp => ⟨h _ _ hp.1, Net.AllS.imp h hp.2⟩

theorem Net.AllS.length {P : Node → LState → Prop} : ∀ {net : Net} {ss : List LState}, net.AllS P ss → ss.length = net.length
  | [], [], _ => rfl
  | (_, _) :: _, _ :: _, hp => by simp [Net.AllS.length hp.2]

/-- bitwidths inside the clip range -/
def Net.Clip (net : Net) (ss : List LState) : Prop := net.AllS (fun nd s => nd.Clipped s.q) ss

theorem zip_append_map {α : Type} (envs : List (List α)) (g : List α → α) :
    List.zipWith (fun (env : List α) o => env ++ [o]) envs (envs.map g) = envs.map fun env => env ++ [g env] := by
  induction envs with
  | nil => rfl
  | cons a l ih => simp [ih]

theorem Net.run_eq : ∀ (net : Net) (ss : List LState) (envs : List (List (List ℚ))), net.Clip ss →
    net.run ss envs = .ok (net.afterL ss envs, envs.map (net.evalEnv (ss.map fun s => s.q.fbw)))
  | [], [], envs, _ => by simp [Net.run, Net.afterL, Net.evalEnv]
  | (nd, ins) :: rest, s :: ss, envs, h => by
    have ih := Net.run_eq rest ss (envs.map fun env => env ++ [nd.out s.q.fbw (gather env ins)]) h.2
    unfold Net.run
    rw [Node.call_eq _ _ _ _ h.1]
    simp only [bind, Except.bind, pure, Except.pure]
    rw [List.map_map, zip_append_map envs (nd.out s.q.fbw ∘ fun x => gather x ins)]
    simp only [Function.comp]
    rw [ih]
    simp only [List.map_map]
    rfl
  | [], _ :: _, _, h => h.elim
  | _ :: _, [], _, h => h.elim

theorem afterL_fbw : ∀ (net : Net) (ss : List LState) (envs : List (List (List ℚ))), ss.length = net.length →
    (net.afterL ss envs).map (fun s => s.q.fbw) = ss.map fun s => s.q.fbw
  | [], [], _, _ => rfl
  | (nd, ins) :: rest, s :: ss, envs, h => by
    simp only [Net.afterL, List.map_cons]
    rw [afterL_fbw rest ss _ (by simpa using h), (nd.after_ext _ _ _).fbw]

theorem afterL_append : ∀ (net : Net) (ss : List LState) (a b : List (List (List ℚ))),
    net.afterL (net.afterL ss a) b = net.afterL ss (a ++ b)
  | [], _, _, _ => rfl
  | _ :: _, [], _, _ => rfl
  | (nd, ins) :: rest, s :: ss, a, b => by
    simp only [Net.afterL, Node.after_append, (nd.after_ext _ _ _).fbw, afterL_append, List.map_append]

theorem afterL_nil : ∀ (net : Net) (ss : List LState), ss.length = net.length → net.afterL ss [] = ss
  | [], [], _ => rfl
  | (nd, ins) :: rest, s :: ss, h => by
    simp only [Net.afterL, List.map_nil, Node.after_nil]
    rw [afterL_nil rest ss (by simpa using h)]

theorem Net.AllS.after {P : Node → LState → Prop}
    (hP : ∀ nd (s : LState) b, P nd s → P nd ⟨nd.after s.q s.recording b, s.recording⟩) :
    ∀ {net : Net} {ss : List LState} (envs : List (List (List ℚ))), net.AllS P ss → net.AllS P (net.afterL ss envs)
  | [], [], _, _ => trivial
  | (_, _) :: _, _ :: _, _, h => ⟨hP _ _ _ h.1, Net.AllS.after hP _ h.2⟩

theorem clip_after {net : Net} {ss : List LState} (h : net.Clip ss) (envs : List (List (List ℚ))) :
    net.Clip (net.afterL ss envs) :=
  Net.AllS.after (fun nd s b hc => clipped_ext nd s.q _ hc (nd.after_ext _ _ _)) envs h

theorem Net.runBatches_eq (net : Net) : ∀ (bs : List (List (List (List ℚ)))) (ss : List LState), net.Clip ss →
    net.runBatches ss bs = .ok (net.afterL ss bs.flatten, bs.map fun b => b.map (net.evalEnv (ss.map fun s => s.q.fbw)))
  | [], ss, h => by simp [Net.runBatches, afterL_nil net ss (Net.AllS.length h)]
  | b :: bs, ss, h => by
    unfold Net.runBatches
    rw [net.run_eq ss b h]
    simp only [bind, Except.bind, pure, Except.pure]
    rw [Net.runBatches_eq net bs _ (clip_after h b)]
    simp only [afterL_append, List.flatten_cons, List.map_cons]
    rw [afterL_fbw net ss b (Net.AllS.length h)]

/-! ### loops over the layers -/

theorem forLayersFrom_get (I : List ℕ) (f : Node → LState → LState) : ∀ (k : ℕ) (net : Net) (ss : List LState) (i : ℕ),
    (Net.forLayersFrom I f k net ss)[i]? = match net[i]?, ss[i]? with
      | some ni, some s => some (if k + i ∈ I ∧ ni.1.site.isSome then f ni.1 s else s)
      | _, _ => none
  | k, [], ss, i => by simp [Net.forLayersFrom]
  | k, (nd, ins) :: net, [], i => by
    simp only [Net.forLayersFrom, List.getElem?_nil]
    split <;> simp_all
  | k, (nd, ins) :: net, s :: ss, 0 => by simp [Net.forLayersFrom]
  | k, (nd, ins) :: net, s :: ss, i + 1 => by
    simp only [Net.forLayersFrom, List.getElem?_cons_succ]
    rw [forLayersFrom_get I f (k + 1) net ss i]
    have : k + 1 + i = k + (i + 1) := by omega
    rw [this]

theorem forLayers_get (I : List ℕ) (f : Node → LState → LState) (net : Net) (ss : List LState) (i : ℕ) :
    (net.forLayers I f ss)[i]? = match net[i]?, ss[i]? with
      | some ni, some s => some (if i ∈ I ∧ ni.1.site.isSome then f ni.1 s else s)
      | _, _ => none := by
  have := forLayersFrom_get I f 0 net ss i
  simpa [Net.forLayers] using this

theorem forLayersFrom_length (I : List ℕ) (f : Node → LState → LState) : ∀ (k : ℕ) (net : Net) (ss : List LState),
    ss.length = net.length → (Net.forLayersFrom I f k net ss).length = net.length
  | _, [], _, _ => rfl
  | k, (_, _) :: net, _ :: ss, h => by
    simp only [Net.forLayersFrom, List.length_cons]
    rw [forLayersFrom_length I f (k + 1) net ss (by simpa using h)]

theorem Net.AllS.forLayersFrom {P : Node → LState → Prop} {I : List ℕ} {f : Node → LState → LState}
    (hf : ∀ nd s, P nd s → P nd (f nd s)) : ∀ (k : ℕ) {net : Net} {ss : List LState}, net.AllS P ss →
    net.AllS P (Net.forLayersFrom I f k net ss)
  | _, [], [], _ => trivial
  | k, (nd, _) :: _, s :: _, h => by
    refine ⟨?_, Net.AllS.forLayersFrom hf (k + 1) h.2⟩
    split_ifs
    · exact hf _ _ h.1
    · exact h.1

theorem allS_iff_get {P : Node → LState → Prop} : ∀ {net : Net} {ss : List LState},
    net.AllS P ss ↔ ss.length = net.length ∧
      ∀ (i : ℕ) ni s, net[i]? = some ni → ss[i]? = some s → P ni.1 s
  | [], [] => by simp [Net.AllS]
  | [], _ :: _ => by simp [Net.AllS]
  | _ :: _, [] => by simp [Net.AllS]
  | (nd, ins) :: net, s :: ss => by
    unfold Net.AllS
    rw [allS_iff_get (net := net)]
    constructor
    · rintro ⟨h1, h2, h3⟩
      refine ⟨by simp [h2], fun i ni s' hn hs => ?_⟩
      cases i with
      | zero => simp at hn hs; subst hn; subst hs; exact h1
      | succ i => exact h3 i ni s' (by simpa using hn) (by simpa using hs)
    · rintro ⟨h1, h2⟩
      exact ⟨h2 0 (nd, ins) s rfl rfl, by simpa using h1, fun i ni s' hn hs => h2 (i + 1) ni s' (by simpa using hn) (by simpa using hs)⟩

/-! ### the state of one layer -/

theorem afterL_get : ∀ (net : Net) (ss : List LState) (envs : List (List (List ℚ))) (i : ℕ) (nd : Node) (ins : List ℕ)
    (s : LState), net[i]? = some (nd, ins) → ss[i]? = some s →
    (net.afterL ss envs)[i]? = some ⟨nd.after s.q s.recording
      (envs.map fun env => gather (Net.evalEnv (net.take i) (ss.map fun s => s.q.fbw) env) ins), s.recording⟩
  | [], _, _, _, _, _, _, h, _ => by simp at h
  | _ :: _, [], _, _, _, _, _, _, h => by simp at h
  | (nd', ins') :: net, s' :: ss, envs, 0, nd, ins, s, h, h' => by
    simp at h h'
    obtain ⟨rfl, rfl⟩ := h
    subst h'
    simp [Net.afterL, Net.evalEnv]
  | (nd', ins') :: net, s' :: ss, envs, i + 1, nd, ins, s, h, h' => by
    simp only [List.getElem?_cons_succ] at h h'
    simp only [Net.afterL, List.getElem?_cons_succ]
    rw [afterL_get net ss _ i nd ins s h h', List.map_map]
    rfl

theorem afterL_get_some {net : Net} {ss : List LState} {envs : List (List (List ℚ))} {i : ℕ} {s' : LState}
    (h : (net.afterL ss envs)[i]? = some s') : ∃ nd ins s, net[i]? = some (nd, ins) ∧ ss[i]? = some s := by
  induction net generalizing ss envs i with
  | nil => simp [Net.afterL] at h
  | cons ni net ih =>
    obtain ⟨nd, ins⟩ := ni
    cases ss with
    | nil => simp [Net.afterL] at h
    | cons s ss =>
      cases i with
      | zero => exact ⟨nd, ins, s, rfl, rfl⟩
      | succ i =>
        simp only [Net.afterL, List.getElem?_cons_succ] at h
        obtain ⟨nd, ins, s, h1, h2⟩ := ih h
        exact ⟨nd, ins, s, by simpa using h1, by simpa using h2⟩

/-- minimum and maximum are in order where both are recorded -/
def Sane (s : QState) : Prop := ∀ e (lo hi : ℚ), s.mn e = (lo : WithTop ℚ) → s.mx e = (hi : WithBot ℚ) → lo ≤ hi

theorem sane_reset (s : QState) : Sane s.reset := fun e lo hi h => by simp [QState.reset] at h

theorem sane_record {s : QState} (h : Sane s) (elem : ℕ → ℕ) (xs : List (List ℚ)) : Sane (s.record elem xs) := by
  intro e lo hi h1 h2
  change min (reduceMin e _) (s.mn e) = _ at h1
  change max (reduceMax e _) (s.mx e) = _ at h2
  have key : ∀ v, (e, v) ∈ batchPairs elem xs → lo ≤ v ∧ v ≤ hi := by
    intro v hv
    constructor
    · have := le_trans (min_le_left (reduceMin e (batchPairs elem xs)) (s.mn e)) (reduceMin_le hv)
      rw [h1] at this; exact WithTop.coe_le_coe.mp this
    · have := le_trans (le_reduceMax hv) (le_max_left (reduceMax e (batchPairs elem xs)) (s.mx e))
      rw [h2] at this; exact WithBot.coe_le_coe.mp this
  rcases min_choice (reduceMin e (batchPairs elem xs)) (s.mn e) with h' | h'
  · rw [h'] at h1
    have := key lo (reduceMin_mem h1)
    linarith [this.2]
  · rcases max_choice (reduceMax e (batchPairs elem xs)) (s.mx e) with h'' | h''
    · rw [h''] at h2
      exact (key hi (reduceMax_mem h2)).1
    · rw [h'] at h1; rw [h''] at h2
      exact h e lo hi h1 h2

theorem Node.after_sane (nd : Node) (s : QState) (record : Bool) (insB : List (List (List ℚ))) (h : Sane s) :
    Sane (nd.after s record insB) := by
  unfold Node.after
  cases nd.site with
  | none => exact h
  | some q =>
    cases record
    · exact h
    · exact sane_record h _ _

/-- the range of `a` lies inside that of `b` -/
def Inside (a b : QState) : Prop := ∀ e, b.mn e ≤ a.mn e ∧ a.mx e ≤ b.mx e

theorem Inside.refl (a : QState) : Inside a a := fun _ => ⟨le_rfl, le_rfl⟩

theorem adjust_inside {a b : QState} (h : Inside a b) (nd : Node) : Inside (nd.adjust a) (nd.adjust b) := by
  unfold Node.adjust
  split
  · exact fun _ => ⟨le_rfl, le_rfl⟩
  · exact fun e => ⟨max_le_max_right _ (h e).1, min_le_min_right _ (h e).2⟩
  · exact fun e => ⟨max_le_max_right _ (h e).1, min_le_min_right _ (h e).2⟩
  · exact h

theorem cover_spec (c : QConf) (factor : ℚ) (s : QState) (hg : GridState s) (hs : Sane s)
    (hc : ∀ e, c.clip (s.fbw e) = s.fbw e) :
    (1 ≤ factor → Inside s (c.cover factor s)) ∧ (0 ≤ factor → factor ≤ 1 → Inside (c.cover factor s) s) := by
  have key : ∀ e, (s.mn e = (c.cover factor s).mn e ∧ s.mx e = (c.cover factor s).mx e) ∨ ∃ lo hi : ℚ,
      s.mn e = (lo : WithTop ℚ) ∧ s.mx e = (hi : WithBot ℚ) ∧
      (c.cover factor s).mn e = ((evalQ c.strategy (s.fbw e) ((lo + hi) / 2 - (hi - lo) / 2 * factor) : ℚ) : WithTop ℚ) ∧
      (c.cover factor s).mx e = ((evalQ c.strategy (s.fbw e) ((lo + hi) / 2 + (hi - lo) / 2 * factor) : ℚ) : WithBot ℚ) ∧
      lo ≤ hi ∧ evalQ c.strategy (s.fbw e) lo = lo ∧ evalQ c.strategy (s.fbw e) hi = hi := by
    intro e
    cases hm : s.mn e with
    | top => left; simp [QConf.cover, hm]
    | coe lo =>
      cases hx : s.mx e with
      | bot => left; simp [QConf.cover, hm, hx]; rfl
      | coe hi =>
        right
        refine ⟨lo, hi, rfl, rfl, ?_, ?_, hs e lo hi hm hx, ?_, ?_⟩
        · simp only [QConf.cover, hm, hx, hc]
        · simp only [QConf.cover, hm, hx, hc]
        · obtain ⟨n, hn⟩ := (hg e).1 lo hm
          rw [hn]; exact evalQ_of_grid _ _ _
        · obtain ⟨n, hn⟩ := (hg e).2 hi hx
          rw [hn]; exact evalQ_of_grid _ _ _
  constructor
  · intro h1 e
    rcases key e with ⟨h, h'⟩ | ⟨lo, hi, e1, e2, e3, e4, hle, g1, g2⟩
    · exact ⟨h.ge, h'.le⟩
    · rw [e1, e2, e3, e4]
      constructor
      · apply WithTop.coe_le_coe.mpr
        conv_rhs => rw [← g1]
        apply evalQ_mono
        nlinarith
      · apply WithBot.coe_le_coe.mpr
        conv_lhs => rw [← g2]
        apply evalQ_mono
        nlinarith
  · intro h0 h1 e
    rcases key e with ⟨h, h'⟩ | ⟨lo, hi, e1, e2, e3, e4, hle, g1, g2⟩
    · exact ⟨h.le, h'.ge⟩
    · rw [e1, e2, e3, e4]
      constructor
      · apply WithTop.coe_le_coe.mpr
        conv_lhs => rw [← g1]
        apply evalQ_mono
        nlinarith
      · apply WithBot.coe_le_coe.mpr
        conv_rhs => rw [← g2]
        apply evalQ_mono
        nlinarith

theorem cover_grid (c : QConf) (factor : ℚ) (s : QState) (hg : GridState s) (hc : ∀ e, c.clip (s.fbw e) = s.fbw e) :
    GridState (c.cover factor s) := by
  have hf : (c.cover factor s).fbw = s.fbw := funext hc
  intro e
  rw [hf]
  cases hm : s.mn e with
  | top =>
    refine ⟨fun v hv => ?_, fun v hv => (hg e).2 v ?_⟩
    · simp only [QConf.cover, hm] at hv; cases hv
    · simp only [QConf.cover, hm] at hv; exact hv
  | coe lo =>
    cases hx : s.mx e with
    | bot =>
      refine ⟨fun v hv => (hg e).1 v ?_, fun v hv => ?_⟩
      · simp only [QConf.cover, hm, hx] at hv; rw [hm]; exact hv
      · simp only [QConf.cover, hm, hx] at hv; cases hv
    | coe hi =>
      refine ⟨fun v hv => ?_, fun v hv => ?_⟩
      · simp only [QConf.cover, hm, hx, hc] at hv
        rw [← WithTop.coe_injective hv]; exact evalQ_grid _ _ _
      · simp only [QConf.cover, hm, hx, hc] at hv
        rw [← WithBot.coe_injective hv]; exact evalQ_grid _ _ _

/-! ### `trace_minmax` step by step -/

/-- states at the end of `trace_minmax` -/
def Net.traceStates (net : Net) (I : List ℕ) (o : TraceOpts) (ss : List LState) (data : List (List (List ℚ))) :
    List LState :=
  let s0 := if o.rst then net.forLayers I (fun _ => startRecording) ss else ss
  let s1 := net.afterL s0 data
  let s2 := if o.cover ≠ 1 then net.forLayers I (Node.cover o.cover) s1 else s1
  let s3 := net.forLayers I (fun nd s => ⟨nd.adjust s.q, s.recording⟩) s2
  if o.noBops then s3 else net.forLayers I (fun _ s => ⟨s.q, false⟩) s3

theorem clip_start {net : Net} {ss : List LState} (h : net.Clip ss) (I : List ℕ) :
    net.Clip (net.forLayers I (fun _ => startRecording) ss) :=
  Net.AllS.forLayersFrom (f := fun _ => startRecording) (fun _ _ hc => hc) 0 h

/-- `trace_minmax` on a model whose bitwidths are within the clip range -/
theorem Net.traceMinmax_eq (net : Net) (ts : List LTree) (outs : List ℕ) (bopsOf : ℕ → List LState → Except String ℚ)
    (o : TraceOpts) (ss : List LState) (data : List (List (List ℚ))) (hc : net.Clip ss) (hb : 0 < o.bsz)
    (hcov : 0 < o.cover) :
    net.traceMinmax ts outs bopsOf o ss data =
      (if o.noBops then .ok (net.traceStates (topLayers ts) o ss data, .minusOne) else do
        let b ← sumBops bopsOf (net.traceStates (topLayers ts) o ss data) (net.hLayers (topLayers ts))
        if o.returnPredictions then return (net.traceStates (topLayers ts) o ss data, .withPreds b (← concatPreds outs
          ((chunks o.bsz data).map fun b => b.map (net.evalEnv (ss.map fun s => s.q.fbw)))))
        return (net.traceStates (topLayers ts) o ss data, .bops b)) := by
  have hs0 : net.Clip (if o.rst then net.forLayers (topLayers ts) (fun _ => startRecording) ss else ss) := by
    split_ifs
    · exact clip_start hc _
    · exact hc
  have hf0 : (if o.rst then net.forLayers (topLayers ts) (fun _ => startRecording) ss else ss).map (fun s => s.q.fbw) =
      ss.map fun s => s.q.fbw := by
    split_ifs
    · have hlen := Net.AllS.length hc
      apply List.ext_getElem?
      intro i
      rw [List.getElem?_map, List.getElem?_map, forLayers_get]
      cases hn : net[i]? with
      | none =>
        have : ss[i]? = none := by rw [List.getElem?_eq_none_iff] at *; omega
        simp [this]
      | some ni =>
        cases hs : ss[i]? with
        | none => simp
        | some s =>
          simp only [Option.map_some]
          split_ifs <;> rfl
    · rfl
  unfold Net.traceMinmax
  simp only [bind, Except.bind, pure, Except.pure]
  rw [if_neg (by omega)]
  rw [Net.runBatches_eq net _ _ hs0, chunks_flatten _ hb, hf0]
  simp only
  rw [if_neg (by rintro ⟨_, h⟩; exact h hcov)]
  unfold Net.traceStates
  simp only [bind, Except.bind, pure, Except.pure]
  cases hno : o.noBops
  · simp only [if_false, Bool.false_eq_true]
  · simp only [if_true]

end HGQ
