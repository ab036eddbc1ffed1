import Verif.Lemmas.Trace

/-!
C47-C50, C52, C73: what `trace_minmax` leaves behind, which layers it reaches, the cover factor, and predictions.
-/

namespace HGQ
open Spec

/-! ### lemmas on single runs -/

theorem Node.call_keeps {nd : Node} {s s' : QState} {record : Bool} {b : List (List (List ℚ))} {o : List (List ℚ)}
    (h : nd.call s record b = .ok (s', o)) (hr : nd.site.isSome = true → record = false) :
    s'.mn = s.mn ∧ s'.mx = s.mx := by
  unfold Node.call at h
  cases hs : nd.site with
  | none => rw [hs] at h; cases h; exact ⟨rfl, rfl⟩
  | some q =>
    rw [hs] at h
    have : record = false := hr (by rw [hs]; rfl)
    subst this
    simp only [QConf.call, bind, Except.bind] at h
    cases hf : q.conf.forwardBatch q.elem (fun e => q.conf.clip (s.fbw e)) (fun _ _ => 0) false (b.map (nd.pre s.fbw)) with
    | error e => rw [hf] at h; cases h
    | ok y => rw [hf] at h; cases h; exact ⟨rfl, rfl⟩

theorem run_get : ∀ {net : Net} {ss ss' : List LState} {envs o : List (List (List ℚ))}, net.run ss envs = .ok (ss', o) →
    ss'.length = net.length ∧ ∀ (i : ℕ) ni s', net[i]? = some ni → ss'[i]? = some s' →
      ∃ s, ss[i]? = some s ∧ s'.recording = s.recording ∧
        ((ni.1.site.isSome = true → s.recording = false) → s'.q.mn = s.q.mn ∧ s'.q.mx = s.q.mx)
  | [], ss, ss', envs, o, h => by
    cases h
    exact ⟨rfl, fun i ni s' hn => by simp at hn⟩
  | (nd, ins) :: net, [], ss', envs, o, h => by cases h
  | (nd, ins) :: net, s :: ss, ss', envs, o, h => by
    unfold Net.run at h
    simp only [bind, Except.bind] at h
    cases hc : nd.call s.q s.recording (envs.map (gather · ins)) with
    | error e => rw [hc] at h; cases h
    | ok qo =>
      obtain ⟨q', outs⟩ := qo
      rw [hc] at h
      simp only at h
      cases hr : Net.run net ss (List.zipWith (fun env o => env ++ [o]) envs outs) with
      | error e => rw [hr] at h; cases h
      | ok r =>
        obtain ⟨ss1, o1⟩ := r
        rw [hr] at h
        cases h
        obtain ⟨h1, h2⟩ := run_get hr
        refine ⟨by simp [h1], fun i ni s' hn hs => ?_⟩
        cases i with
        | zero =>
          simp at hn hs
          subst hn; subst hs
          exact ⟨s, rfl, rfl, fun hrec => Node.call_keeps hc hrec⟩
        | succ i => exact h2 i ni s' (by simpa using hn) (by simpa using hs)

theorem runBatches_get (net : Net) : ∀ {bs : List (List (List (List ℚ)))} {ss ss' : List LState}
    {o : List (List (List (List ℚ)))}, ss.length = net.length → net.runBatches ss bs = .ok (ss', o) →
    ss'.length = net.length ∧ ∀ (i : ℕ) s', ss'[i]? = some s' →
      ∃ s, ss[i]? = some s ∧ s'.recording = s.recording
  | [], ss, ss', o, hl, h => by cases h; exact ⟨hl, fun i s' hs => ⟨s', hs, rfl⟩⟩
  | b :: bs, ss, ss', o, hl, h => by
    unfold Net.runBatches at h
    simp only [bind, Except.bind] at h
    cases hr : net.run ss b with
    | error e => rw [hr] at h; cases h
    | ok r =>
      obtain ⟨s1, o1⟩ := r
      rw [hr] at h
      simp only at h
      cases hb : net.runBatches s1 bs with
      | error e => rw [hb] at h; cases h
      | ok r' =>
        obtain ⟨s2, o2⟩ := r'
        rw [hb] at h
        cases h
        obtain ⟨l1, g1⟩ := run_get hr
        obtain ⟨l2, g2⟩ := runBatches_get net l1 hb
        refine ⟨l2, fun i s' hs => ?_⟩
        obtain ⟨s, hs1, he⟩ := g2 i s' hs
        have hi : i < net.length := by
          rw [← l1]; exact (List.getElem?_eq_some_iff.mp hs1).1
        obtain ⟨s0, hs0, he0, -⟩ := g1 i net[i] s (List.getElem?_eq_getElem hi) hs1
        exact ⟨s0, hs0, he.trans he0⟩

theorem traceMinmax_inv {net : Net} {ts : List LTree} {outs : List ℕ} {bopsOf : ℕ → List LState → Except String ℚ}
    {o : TraceOpts} {ss ss' : List LState} {data : List (List (List ℚ))} {r : TraceRes}
    (h : net.traceMinmax ts outs bopsOf o ss data = .ok (ss', r)) (hno : o.noBops = false) :
    ∃ s1 r1, net.runBatches (if o.rst then net.forLayers (topLayers ts) (fun _ => startRecording) ss else ss)
        (chunks o.bsz data) = .ok (s1, r1) ∧
      ss' = net.forLayers (topLayers ts) (fun _ s => ⟨s.q, false⟩)
        (net.forLayers (topLayers ts) (fun nd s => ⟨nd.adjust s.q, s.recording⟩)
          (if o.cover ≠ 1 then net.forLayers (topLayers ts) (Node.cover o.cover) s1 else s1)) := by
  unfold Net.traceMinmax at h
  simp only [bind, Except.bind, pure, Except.pure, hno, Bool.false_eq_true, if_false] at h
  by_cases hb : o.bsz = 0
  · rw [if_pos hb] at h; cases h
  rw [if_neg hb] at h
  cases hr : net.runBatches (if o.rst then net.forLayers (topLayers ts) (fun _ => startRecording) ss else ss)
      (chunks o.bsz data) with
  | error e => rw [hr] at h; cases h
  | ok x =>
    obtain ⟨s1, r1⟩ := x
    refine ⟨s1, r1, rfl, ?_⟩
    rw [hr] at h
    simp only at h
    by_cases hcv : o.cover ≠ 1 ∧ ¬ o.cover > 0
    · rw [if_pos hcv] at h; cases h
    rw [if_neg hcv] at h
    revert h
    generalize net.forLayers (topLayers ts) (fun _ s => ⟨s.q, false⟩) _ = S
    intro h
    cases hs : sumBops bopsOf S (net.hLayers (topLayers ts)) with
    | error e => rw [hs] at h; cases h
    | ok b =>
      rw [hs] at h
      simp only at h
      split_ifs at h
      · cases hp : concatPreds outs r1 with
        | error e => rw [hp] at h; cases h
        | ok p => rw [hp] at h; cases h; rfl
      · cases h; rfl

/-- loops that keep the recording flags -/
theorem forLayers_recording {I : List ℕ} {f : Node → LState → LState} (hf : ∀ nd s, (f nd s).recording = s.recording)
    {net : Net} {ss : List LState} {i : ℕ} {s' : LState} (h : (net.forLayers I f ss)[i]? = some s') :
    ∃ s, ss[i]? = some s ∧ s'.recording = s.recording := by
  rw [forLayers_get] at h
  cases hn : net[i]? with
  | none => rw [hn] at h; simp at h
  | some ni =>
    cases hs : ss[i]? with
    | none => rw [hn, hs] at h; simp at h
    | some s =>
      rw [hn, hs] at h
      simp only [Option.some.injEq] at h
      refine ⟨s, rfl, ?_⟩
      rw [← h]
      split_ifs
      · exact hf _ _
      · rfl

/-! ### C47 -/

/-- **C47** (partial). After `trace_minmax` (any options but `no_bops_computation`, any data) has returned, no later
inference changes a recorded range, provided the layers inside nested models were not recording before (they never are:
`trace_minmax` does not switch them on). Missing: `no_bops_computation=True` (`C47_no_bops_keeps_recording`). -/
theorem C47_inference_keeps_ranges_partial (net : Net) (ts : List LTree) (outs : List ℕ)
    (bopsOf : ℕ → List LState → Except String ℚ) (o : TraceOpts) (ss ss' : List LState) (data : List (List (List ℚ)))
    (r : TraceRes) (hlen : ss.length = net.length) (hno : o.noBops = false)
    (hnested : ∀ (i : ℕ) s, ss[i]? = some s → i ∉ topLayers ts → s.recording = false)
    (h : net.traceMinmax ts outs bopsOf o ss data = .ok (ss', r))
    (batch : List (List (List ℚ))) (ss'' : List LState) (preds : List (List (List ℚ)))
    (hrun : net.run ss' batch = .ok (ss'', preds)) (i : ℕ) (hi : i < net.length) :
    ∃ s' s'', ss'[i]? = some s' ∧ ss''[i]? = some s'' ∧ s''.q.mn = s'.q.mn ∧ s''.q.mx = s'.q.mx := by
  obtain ⟨s1, r1, h1, rfl⟩ := traceMinmax_inv h hno
  obtain ⟨hl, hg⟩ := run_get hrun
  have hi'' : i < ss''.length := by rw [hl]; exact hi
  obtain ⟨s', hs', -, hkeep⟩ := hg i net[i] ss''[i] (List.getElem?_eq_getElem hi) (List.getElem?_eq_getElem hi'')
  refine ⟨s', ss''[i], hs', List.getElem?_eq_getElem hi'', hkeep fun hsite => ?_⟩
  rw [forLayers_get] at hs'
  cases hs3 : (net.forLayers (topLayers ts) (fun nd s => ⟨nd.adjust s.q, s.recording⟩)
          (if o.cover ≠ 1 then net.forLayers (topLayers ts) (Node.cover o.cover) s1 else s1))[i]? with
  | none => rw [hs3, List.getElem?_eq_getElem hi] at hs'; simp at hs'
  | some s3 =>
    rw [hs3, List.getElem?_eq_getElem hi] at hs'
    simp only [Option.some.injEq] at hs'
    by_cases hI : i ∈ topLayers ts
    · rw [if_pos ⟨hI, hsite⟩] at hs'
      rw [← hs']
    · rw [if_neg (fun hh => hI hh.1)] at hs'
      subst hs'
      obtain ⟨s2, hs2, e2⟩ := forLayers_recording (f := fun nd s => ⟨nd.adjust s.q, s.recording⟩) (fun nd s => rfl) hs3
      rw [e2]
      have : ∃ s, s1[i]? = some s ∧ s2.recording = s.recording := by
        split_ifs at hs2
        · refine forLayers_recording (fun nd s => ?_) hs2
          unfold Node.cover
          cases nd.site <;> rfl
        · exact ⟨s2, hs2, rfl⟩
      obtain ⟨s, hs, e⟩ := this
      rw [e]
      have hl0 : (if o.rst then net.forLayers (topLayers ts) (fun _ => startRecording) ss else ss).length = net.length := by
        split_ifs
        · exact forLayersFrom_length _ _ 0 net ss hlen
        · exact hlen
      obtain ⟨s0, hs0, e0⟩ := (runBatches_get net hl0 h1).2 i s hs
      rw [e0]
      split_ifs at hs0
      · rw [forLayers_get, List.getElem?_eq_getElem hi, List.getElem?_eq_getElem (by rw [hlen]; exact hi)] at hs0
        simp only [Option.some.injEq] at hs0
        rw [if_neg (fun hh => hI hh.1)] at hs0
        rw [← hs0]
        exact hnested i _ (List.getElem?_eq_getElem _) hI
      · exact hnested i s0 hs0 hI

/-- a quantizer with 2 fractional bits on one value, nearest rounding -/
def exQz : QSite := ⟨⟨0, true, some (-10, 20), fun _ => 1, 7 / 10⟩, [1], [1]⟩

/-- initial state with 2 fractional bits, nothing recorded -/
def exQzState : LState := ⟨⟨fun _ => 2, fun _ => ⊤, fun _ => ⊥⟩, false⟩

def exOne : Net := [(.quantize exQz, [0])]

/-- recorded range of a layer after a successful call -/
def rangeOf (i e : ℕ) {β : Type} : Except String (List LState × β) → Option (WithTop ℚ × WithBot ℚ)
  | .ok (ss, _) => ss[i]?.map fun s => (s.q.mn e, s.q.mx e)
  | .error _ => none

/-- the range from `lo` to `hi` -/
def range (lo hi : ℚ) : Option (WithTop ℚ × WithBot ℚ) := some ((lo : WithTop ℚ), (hi : WithBot ℚ))

/-- states after a successful call -/
def statesOf {β : Type} : Except String (List LState × β) → List LState
  | .ok (ss, _) => ss
  | .error _ => []

/-- C47 is false for `no_bops_computation=True`: the layers go on recording, and the next inference widens the range. -/
theorem C47_no_bops_keeps_recording :
    let t := exOne.traceMinmax [.layer 0] [1] (fun _ _ => .ok 0) { noBops := true } [exQzState] [[[1]]]
    rangeOf 0 0 t = range 1 1 ∧ rangeOf 0 0 (exOne.run (statesOf t) [[[5]]]) = range 1 5 := by
  decide +kernel

example : let t := exOne.traceMinmax [.layer 0] [1] (fun _ _ => .ok 0) {} [exQzState] [[[1]], [[-3]]]
    rangeOf 0 0 t = range (-3) 1 ∧ rangeOf 0 0 (exOne.run (statesOf t) [[[5]]]) = range (-3) 1 := by
  decide +kernel

/-! ### C48 -/

theorem clamp_min {α : Type} [LinearOrder α] (r m z : α) : max (min r (max m z)) z = max (min r m) z := by
  rw [max_min_distrib_right, max_min_distrib_right, max_assoc, max_self]

theorem clamp_max {α : Type} [LinearOrder α] (r m z : α) : min (max r (min m z)) z = min (max r m) z := by
  rw [min_max_distrib_right, min_max_distrib_right, min_assoc, min_self]

theorem Node.adjust_after_adjust (nd : Node) (s : QState) (r : Bool) (b : List (List (List ℚ))) :
    nd.adjust (nd.after (nd.adjust s) r b) = nd.adjust (nd.after s r b) := by
  cases nd with
  | activation kind φ q =>
    cases kind <;> cases r <;>
      simp [Node.adjust, Node.after, Node.site, QState.record, clamp_min, clamp_max]
  | _ => rfl

theorem adj_after_adj (I : List ℕ) : ∀ (k : ℕ) (net : Net) (ss : List LState) (envs : List (List (List ℚ))),
    let A : Node → LState → LState := fun nd s => ⟨nd.adjust s.q, s.recording⟩
    Net.forLayersFrom I A k net (net.afterL (Net.forLayersFrom I A k net ss) envs) =
      Net.forLayersFrom I A k net (net.afterL ss envs)
  | _, [], _, _ => rfl
  | _, _ :: _, [], _ => rfl
  | k, (nd, ins) :: net, s :: ss, envs => by
    intro A
    have ih := adj_after_adj I (k + 1) net ss (envs.map fun env => env ++ [nd.out s.q.fbw (gather env ins)])
    simp only [Net.forLayersFrom, Net.afterL]
    by_cases h : k ∈ I ∧ nd.site.isSome
    · simp only [if_pos h]
      have hf : (A nd s).q.fbw = s.q.fbw := adjust_fbw nd s.q
      rw [hf]
      congr 1
      show (⟨nd.adjust (nd.after (nd.adjust s.q) s.recording _), s.recording⟩ : LState) = ⟨nd.adjust (nd.after s.q s.recording _), s.recording⟩
      rw [Node.adjust_after_adjust]
    · simp only [if_neg h]
      congr 1

theorem clip_traceStates {net : Net} {I : List ℕ} {o : TraceOpts} {ss : List LState} {data : List (List (List ℚ))}
    (h : net.Clip ss) : net.Clip (net.traceStates I o ss data) := by
  have h0 : net.Clip (if o.rst then net.forLayers I (fun _ => startRecording) ss else ss) := by
    split_ifs
    · exact clip_start h I
    · exact h
  unfold Net.traceStates
  dsimp only
  generalize (if o.rst then net.forLayers I (fun _ => startRecording) ss else ss) = s0 at h0
  have h1 := clip_after h0 data
  generalize net.afterL s0 data = s1 at h1
  have h2 : net.Clip (if o.cover ≠ 1 then net.forLayers I (Node.cover o.cover) s1 else s1) := by
    split_ifs
    · refine Net.AllS.forLayersFrom (fun nd s hc => ?_) 0 h1
      intro q hq e
      unfold Node.cover
      rw [hq]
      show q.conf.clip (q.conf.clip (s.q.fbw e)) = q.conf.clip (s.q.fbw e)
      rw [hc q hq e, hc q hq e]
    · exact h1
  generalize (if o.cover ≠ 1 then net.forLayers I (Node.cover o.cover) s1 else s1) = s2 at h2
  have h3 : net.Clip (net.forLayers I (fun nd s => ⟨nd.adjust s.q, s.recording⟩) s2) :=
    Net.AllS.forLayersFrom (f := fun nd s => ⟨nd.adjust s.q, s.recording⟩) (fun nd s hc q hq e => by
      show q.conf.clip ((nd.adjust s.q).fbw e) = (nd.adjust s.q).fbw e
      rw [adjust_fbw]; exact hc q hq e) 0 h2
  split_ifs
  · exact h3
  · exact Net.AllS.forLayersFrom (f := fun _ s => ⟨s.q, false⟩) (fun nd s hc => hc) 0 h3

/-- **C48** (partial). If the first call left the recording on (`no_bops_computation=True`), a second call with `rst=False`
gives exactly what one call on both datasets gives: ranges, flags and BOPs of every layer, for every batch size. Missing:
a first call that computes BOPs (the default), after which `rst=False` records nothing (`C48_rst_false_records_nothing`). -/
theorem C48_extends_partial (net : Net) (ts : List LTree) (outs : List ℕ) (bopsOf : ℕ → List LState → Except String ℚ)
    (o₁ o₂ : TraceOpts) (ss s1 : List LState) (r1 : TraceRes) (d1 d2 : List (List (List ℚ))) (hc : net.Clip ss)
    (hb₁ : 0 < o₁.bsz) (hb₂ : 0 < o₂.bsz) (hp : o₂.returnPredictions = false)
    (h1 : net.traceMinmax ts outs bopsOf { o₁ with noBops := true, rst := true, cover := 1 } ss d1 = .ok (s1, r1)) :
    net.traceMinmax ts outs bopsOf { o₂ with rst := false, cover := 1 } s1 d2 =
      net.traceMinmax ts outs bopsOf { o₂ with rst := true, cover := 1 } ss (d1 ++ d2) := by
  rw [Net.traceMinmax_eq net ts outs bopsOf { o₁ with noBops := true, rst := true, cover := 1 } ss d1 hc hb₁ (by norm_num)] at h1
  simp only [if_true, Except.ok.injEq, Prod.mk.injEq] at h1
  obtain ⟨rfl, -⟩ := h1
  rw [Net.traceMinmax_eq net ts outs bopsOf { o₂ with rst := false, cover := 1 } _ d2 (clip_traceStates hc) hb₂
      (by norm_num),
    Net.traceMinmax_eq net ts outs bopsOf { o₂ with rst := true, cover := 1 } ss (d1 ++ d2) hc hb₂ (by norm_num)]
  have key : net.traceStates (topLayers ts) { o₂ with rst := false, cover := 1 }
      (net.traceStates (topLayers ts) { o₁ with noBops := true, rst := true, cover := 1 } ss d1) d2 =
      net.traceStates (topLayers ts) { o₂ with rst := true, cover := 1 } ss (d1 ++ d2) := by
    simp only [Net.traceStates, if_true, if_false, ne_eq, not_true, Bool.false_eq_true]
    have e := adj_after_adj (topLayers ts) 0 net (net.afterL (net.forLayers (topLayers ts) (fun _ => startRecording) ss) d1) d2
    rw [afterL_append] at e
    unfold Net.forLayers at *
    rw [e]
  rw [key]
  simp only [hp, Bool.false_eq_true, if_false]

theorem forLayers_id {net : Net} {I : List ℕ} {f : Node → LState → LState} {ss : List LState}
    (hlen : ss.length = net.length)
    (h : ∀ (i : ℕ) ni s, net[i]? = some ni → ss[i]? = some s → i ∈ I → ni.1.site.isSome = true → f ni.1 s = s) :
    net.forLayers I f ss = ss := by
  apply List.ext_getElem?
  intro i
  rw [forLayers_get]
  cases hn : net[i]? with
  | none =>
    have : ss[i]? = none := by rw [List.getElem?_eq_none_iff] at *; omega
    simp [this]
  | some ni =>
    cases hs : ss[i]? with
    | none => simp
    | some s =>
      simp only [Option.some.injEq]
      split_ifs with hc
      · exact h i ni s hn hs hc.1 hc.2
      · rfl

theorem Node.after_off (nd : Node) (s : QState) (b : List (List (List ℚ))) : nd.after s false b = s := by
  unfold Node.after
  cases nd.site <;> rfl

theorem Node.after_signless (nd : Node) (s : QState) (r : Bool) (b : List (List (List ℚ))) (h : nd.site.isSome = false) :
    nd.after s r b = s := by
  unfold Node.after
  cases hs : nd.site with
  | none => rfl
  | some q => rw [hs] at h; cases h

theorem afterL_off : ∀ {net : Net} {ss : List LState} (envs : List (List (List ℚ))),
    net.AllS (fun nd s => nd.site.isSome = true → s.recording = false) ss → net.afterL ss envs = ss
  | [], [], _, _ => rfl
  | (nd, ins) :: net, s :: ss, envs, h => by
    simp only [Net.afterL]
    rw [afterL_off _ h.2]
    congr 1
    cases hs : nd.site.isSome with
    | false => rw [Node.after_signless nd s.q _ _ hs]
    | true =>
      have := h.1 hs
      rw [this, Node.after_off, ← this]

theorem Node.adjust_idem (nd : Node) (s : QState) : nd.adjust (nd.adjust s) = nd.adjust s := by
  cases nd with
  | activation kind φ q => cases kind <;> simp [Node.adjust]
  | _ => rfl

/-- a layer outside `model.layers` that is not recording is left as it is by all of `trace_minmax` -/
theorem traceStates_other {net : Net} {I : List ℕ} {o : TraceOpts} {ss : List LState} {data : List (List (List ℚ))} {i : ℕ}
    (hlen : ss.length = net.length) (hI : i ∉ I) (hrec : ∀ s, ss[i]? = some s → s.recording = false) :
    (net.traceStates I o ss data)[i]? = ss[i]? := by
  have hF : ∀ (f : Node → LState → LState) (S : List LState), S.length = net.length → (net.forLayers I f S)[i]? = S[i]? := by
    intro f S hS
    rw [forLayers_get]
    cases hn : net[i]? with
    | none =>
      have : S[i]? = none := by rw [List.getElem?_eq_none_iff] at *; omega
      simp [this]
    | some ni =>
      cases hs : S[i]? with
      | none => simp
      | some s => simp [hI]
  have hL : ∀ (f : Node → LState → LState) (S : List LState), S.length = net.length →
      (net.forLayers I f S).length = net.length := fun f S hS => forLayersFrom_length I f 0 net S hS
  have h0 : (if o.rst then net.forLayers I (fun _ => startRecording) ss else ss)[i]? = ss[i]? ∧
      (if o.rst then net.forLayers I (fun _ => startRecording) ss else ss).length = net.length := by
    split_ifs
    · exact ⟨hF _ _ hlen, hL _ _ hlen⟩
    · exact ⟨rfl, hlen⟩
  unfold Net.traceStates
  dsimp only
  generalize (if o.rst then net.forLayers I (fun _ => startRecording) ss else ss) = s0 at h0
  have h1l : (net.afterL s0 data).length = net.length := by
    have := congrArg List.length (afterL_fbw net s0 data h0.2)
    simpa [h0.2] using this
  have h1 : (net.afterL s0 data)[i]? = ss[i]? := by
    cases hs : ss[i]? with
    | none =>
      rw [List.getElem?_eq_none_iff] at *; omega
    | some s =>
      have hi : i < net.length := by rw [← hlen]; exact (List.getElem?_eq_some_iff.mp hs).1
      rw [afterL_get net s0 data i net[i].1 net[i].2 s (List.getElem?_eq_getElem hi) (h0.1.trans hs), hrec s hs,
        Node.after_off, ← hrec s hs]
  generalize net.afterL s0 data = s1 at h1 h1l
  have h2 : (if o.cover ≠ 1 then net.forLayers I (Node.cover o.cover) s1 else s1)[i]? = ss[i]? ∧
      (if o.cover ≠ 1 then net.forLayers I (Node.cover o.cover) s1 else s1).length = net.length := by
    split_ifs
    · exact ⟨(hF _ _ h1l).trans h1, hL _ _ h1l⟩
    · exact ⟨h1, h1l⟩
  generalize (if o.cover ≠ 1 then net.forLayers I (Node.cover o.cover) s1 else s1) = s2 at h2
  split_ifs
  · rw [hF _ _ h2.2, h2.1]
  · rw [hF _ _ (hL _ _ h2.2), hF _ _ h2.2, h2.1]

/-- **C48**, the other case: after an ordinary first call (BOPs computed, any cover factor), a second call with `rst=False`
changes nothing whatever its dataset: every layer keeps its range, and the same BOPs are returned. -/
theorem C48_ordinary_first_call (net : Net) (ts : List LTree) (outs : List ℕ)
    (bopsOf : ℕ → List LState → Except String ℚ) (o₁ o₂ : TraceOpts) (ss s1 : List LState) (r1 : TraceRes)
    (d1 d2 : List (List (List ℚ))) (hc : net.Clip ss) (hb₁ : 0 < o₁.bsz) (hb₂ : 0 < o₂.bsz) (hcov : 0 < o₁.cover)
    (hnested : ∀ (i : ℕ) s, ss[i]? = some s → i ∉ topLayers ts → s.recording = false)
    (hno₁ : o₁.noBops = false) (hno₂ : o₂.noBops = false) (hrst : o₂.rst = false) (hcov₂ : o₂.cover = 1)
    (hp₁ : o₁.returnPredictions = false) (hp₂ : o₂.returnPredictions = false)
    (h1 : net.traceMinmax ts outs bopsOf o₁ ss d1 = .ok (s1, r1)) :
    net.traceMinmax ts outs bopsOf o₂ s1 d2 = .ok (s1, r1) := by
  have hlen := Net.AllS.length hc
  rw [Net.traceMinmax_eq net ts outs bopsOf o₁ ss d1 hc hb₁ hcov] at h1
  simp only [hno₁, Bool.false_eq_true, if_false, hp₁] at h1
  have hs1 : s1 = net.traceStates (topLayers ts) o₁ ss d1 := by
    simp only [bind, Except.bind, pure, Except.pure] at h1
    cases hs : sumBops bopsOf (net.traceStates (topLayers ts) o₁ ss d1)
        (net.hLayers (topLayers ts)) with
    | error e => rw [hs] at h1; cases h1
    | ok b => rw [hs] at h1; cases h1; rfl
  have hc1 : net.Clip s1 := by rw [hs1]; exact clip_traceStates hc
  have hl1 := Net.AllS.length hc1
  have key : net.traceStates (topLayers ts) o₂ s1 d2 = s1 := by
    have hoff : net.AllS (fun nd s => nd.site.isSome = true → s.recording = false) s1 := by
      rw [allS_iff_get]
      refine ⟨hl1, fun i ni s hn hs hsite => ?_⟩
      by_cases hI : i ∈ topLayers ts
      · rw [hs1] at hs
        unfold Net.traceStates at hs
        simp only [hno₁, Bool.false_eq_true, if_false] at hs
        rw [forLayers_get, hn] at hs
        revert hs
        generalize (net.forLayers (topLayers ts) (fun nd s => (⟨nd.adjust s.q, s.recording⟩ : LState)) _)[i]? = X
        intro hs
        cases X with
        | none => cases hs
        | some x =>
          simp only [hI, hsite, and_self, if_true, Option.some.injEq] at hs
          rw [← hs]
      · rw [hs1, traceStates_other hlen hI (fun s hs => hnested i s hs hI)] at hs
        exact hnested i s hs hI
    have hadj : net.forLayers (topLayers ts) (fun nd s => ⟨nd.adjust s.q, s.recording⟩) s1 = s1 := by
      refine forLayers_id hl1 fun i ni s hn hs hI hsite => ?_
      rw [hs1] at hs
      unfold Net.traceStates at hs
      simp only [hno₁, Bool.false_eq_true, if_false] at hs
      rw [forLayers_get, forLayers_get, hn] at hs
      revert hs
      generalize (if o₁.cover ≠ 1 then _ else _ : List LState)[i]? = X
      intro hs
      cases X with
      | none => cases hs
      | some x =>
        simp only [hI, hsite, and_self, if_true, Option.some.injEq] at hs
        rw [← hs]
        simp only [Node.adjust_idem]
    unfold Net.traceStates
    simp only [hno₂, hrst, hcov₂, Bool.false_eq_true, if_false, ne_eq, not_true_eq_false]
    rw [afterL_off d2 hoff, hadj]
    refine forLayers_id hl1 fun i ni s hn hs hI hsite => ?_
    have := (allS_iff_get.mp hoff).2 i ni s hn hs hsite
    rw [← this]
  rw [Net.traceMinmax_eq net ts outs bopsOf o₂ s1 d2 hc1 hb₂ (by rw [hcov₂]; norm_num),
    key]
  simp only [hno₂, Bool.false_eq_true, if_false, hp₂]
  rw [← hs1] at h1
  exact h1

/-- C48 is false after an ordinary first call: the second one records nothing. -/
theorem C48_rst_false_records_nothing :
    let t := exOne.traceMinmax [.layer 0] [1] (fun _ _ => .ok 0) {} [exQzState] [[[1]]]
    rangeOf 0 0 t = range 1 1 ∧
    rangeOf 0 0 (exOne.traceMinmax [.layer 0] [1] (fun _ _ => .ok 0) { rst := false } (statesOf t) [[[5]]]) = range 1 1 := by
  decide +kernel

theorem exOne_clip : exOne.Clip [exQzState] := by
  refine ⟨?_, trivial⟩
  intro q hq e
  cases hq
  show clipByValue 2 (-10) 20 = 2
  decide +kernel

/-- the hypotheses of `C48_ordinary_first_call` on a model with one quantizer; the second dataset has the value 5 -/
example (s1 : List LState) (r1 : TraceRes)
    (h : exOne.traceMinmax [.layer 0] [1] (fun _ _ => .ok 0) { cover := 2 } [exQzState] [[[1]], [[-3]]] = .ok (s1, r1)) :
    exOne.traceMinmax [.layer 0] [1] (fun _ _ => .ok 0) { rst := false } s1 [[[5]]] = .ok (s1, r1) :=
  C48_ordinary_first_call exOne [.layer 0] [1] _ { cover := 2 } { rst := false } [exQzState] s1 r1 _ _ exOne_clip
    (by decide) (by decide) (by norm_num)
    (fun i s hs hI => by
      cases i with
      | zero => exact absurd (by simp [topLayers]) hI
      | succ i => simp at hs) rfl rfl rfl rfl rfl rfl h

example : rangeOf 0 0 (exOne.traceMinmax [.layer 0] [1] (fun _ _ => .ok 0) { cover := 2 } [exQzState] [[[1]], [[-3]]]) =
    range (-5) 3 := by
  decide +kernel

example : let t := exOne.traceMinmax [.layer 0] [1] (fun _ _ => .ok 0) { noBops := true } [exQzState] [[[1]], [[-3]]]
    rangeOf 0 0 (exOne.traceMinmax [.layer 0] [1] (fun _ _ => .ok 0) { rst := false } (statesOf t) [[[5]]]) = range (-3) 5 := by
  decide +kernel

/-! ### C50 -/

/-- ranges of a layer after calls with factor 1 and with another factor are related by any relation that the factor and the
final adjustment respect -/
theorem traceStates_compare {net : Net} {I : List ℕ} {o : TraceOpts} {ss : List LState} {data : List (List (List ℚ))}
    (hc : net.Clip ss) (hrst : o.rst = true) (R : QState → QState → Prop) (hrefl : ∀ a, R a a)
    (hadj : ∀ nd a b, R a b → R (Node.adjust nd a) (Node.adjust nd b))
    (hcov : ∀ (q : QSite) (s : QState), GridState s → Sane s → (∀ e, q.conf.clip (s.fbw e) = s.fbw e) → R s (q.conf.cover o.cover s))
    {i : ℕ} {a b : LState} (ha : (net.traceStates I { o with cover := 1 } ss data)[i]? = some a)
    (hb : (net.traceStates I o ss data)[i]? = some b) : R a.q b.q := by
  have hlen := Net.AllS.length hc
  have final : ∀ (nb : Bool) (S : List LState) (x : LState),
      (if nb then net.forLayers I (fun nd s => ⟨nd.adjust s.q, s.recording⟩) S else
        net.forLayers I (fun _ s => ⟨s.q, false⟩) (net.forLayers I (fun nd s => ⟨nd.adjust s.q, s.recording⟩) S))[i]? = some x →
      ∃ ni s, net[i]? = some ni ∧ S[i]? = some s ∧ x.q = if i ∈ I ∧ ni.1.site.isSome then ni.1.adjust s.q else s.q := by
    intro nb S x hx
    have h3 : ∃ y, (net.forLayers I (fun nd s => ⟨nd.adjust s.q, s.recording⟩) S)[i]? = some y ∧ x.q = y.q := by
      split_ifs at hx
      · exact ⟨x, hx, rfl⟩
      · rw [forLayers_get] at hx
        cases hn : net[i]? with
        | none => rw [hn] at hx; simp at hx
        | some ni =>
          cases hs : (net.forLayers I (fun nd s => ⟨nd.adjust s.q, s.recording⟩) S)[i]? with
          | none => rw [hn, hs] at hx; simp at hx
          | some y =>
            rw [hn, hs] at hx
            simp only [Option.some.injEq] at hx
            refine ⟨y, rfl, ?_⟩
            rw [← hx]; split_ifs <;> rfl
    obtain ⟨y, hy, e⟩ := h3
    rw [forLayers_get] at hy
    cases hn : net[i]? with
    | none => rw [hn] at hy; simp at hy
    | some ni =>
      cases hs : S[i]? with
      | none => rw [hn, hs] at hy; simp at hy
      | some s =>
        rw [hn, hs] at hy
        simp only [Option.some.injEq] at hy
        refine ⟨ni, s, rfl, rfl, ?_⟩
        rw [e, ← hy]; split_ifs <;> rfl
  unfold Net.traceStates at ha hb
  simp only [hrst, if_true, ne_eq, not_true, if_false] at ha hb
  obtain ⟨ni, s, hn, hs, ea⟩ := final o.noBops _ a ha
  obtain ⟨ni', s', hn', hs', eb⟩ := final o.noBops _ b hb
  rw [hn] at hn'; cases hn'
  rw [ea, eb]
  by_cases hI : i ∈ I ∧ ni.1.site.isSome
  · rw [if_pos hI, if_pos hI]
    apply hadj
    split_ifs at hs' with h1
    · rw [hs] at hs'; cases hs'; exact hrefl _
    · rw [forLayers_get, hn, hs] at hs'
      simp only [Option.some.injEq, if_pos hI] at hs'
      rw [← hs']
      obtain ⟨q, hq⟩ := Option.isSome_iff_exists.mp hI.2
      unfold Node.cover
      rw [hq]
      obtain ⟨nd, ins, s0, g1, g2⟩ := afterL_get_some hs
      rw [hn] at g1; cases g1
      have g3 := afterL_get net _ data i nd ins s0 hn g2
      rw [g3] at hs
      cases hs
      rw [forLayers_get, hn] at g2
      cases hss : ss[i]? with
      | none => rw [hss] at g2; simp at g2
      | some s00 =>
        rw [hss] at g2
        simp only [Option.some.injEq, if_pos hI] at g2
        subst g2
        apply hcov q _
        · exact nd.after_grid _ _ _ (gridState_reset _)
        · exact nd.after_sane _ _ _ (sane_reset _)
        · intro e
          rw [(nd.after_ext _ _ _).fbw]
          exact (allS_iff_get.mp hc).2 i (nd, ins) s00 hn hss q hq e
  · rw [if_neg hI, if_neg hI]
    split_ifs at hs' with h1
    · rw [hs] at hs'; cases hs'; exact hrefl _
    · rw [forLayers_get, hn, hs] at hs'
      simp only [Option.some.injEq, if_neg hI] at hs'
      rw [hs']; exact hrefl _

/-- a successful `trace_minmax` ends in `traceStates` -/
theorem traceMinmax_states {net : Net} {ts : List LTree} {outs : List ℕ} {bopsOf : ℕ → List LState → Except String ℚ}
    {o : TraceOpts} {ss ss' : List LState} {data : List (List (List ℚ))} {r : TraceRes} (hc : net.Clip ss)
    (h : net.traceMinmax ts outs bopsOf o ss data = .ok (ss', r)) :
    0 < o.bsz ∧ 0 < o.cover ∧ ss' = net.traceStates (topLayers ts) o ss data := by
  have hb : 0 < o.bsz := by
    by_contra hb
    have hb : o.bsz = 0 := by omega
    unfold Net.traceMinmax at h
    simp only [bind, Except.bind, hb, if_true] at h
    cases h
  have hcov : 0 < o.cover := by
    by_contra hcv
    have hs0 : net.Clip (if o.rst then net.forLayers (topLayers ts) (fun _ => startRecording) ss else ss) := by
      split_ifs
      · exact clip_start hc _
      · exact hc
    unfold Net.traceMinmax at h
    simp only [bind, Except.bind, if_neg hb.ne', pure, Except.pure] at h
    rw [Net.runBatches_eq net _ _ hs0] at h
    simp only at h
    rw [if_pos ⟨fun e => hcv (by rw [e]; norm_num), hcv⟩] at h
    cases h
  refine ⟨hb, hcov, ?_⟩
  rw [net.traceMinmax_eq ts outs bopsOf o ss data hc hb hcov] at h
  split_ifs at h with h1
  · cases h; rfl
  all_goals
    simp only [bind, Except.bind] at h
    cases hs : sumBops bopsOf (net.traceStates (topLayers ts) o ss data) (net.hLayers (topLayers ts)) with
    | error e => rw [hs] at h; cases h
    | ok b =>
      rw [hs] at h
      simp only at h
      first
      | cases h; rfl
      | cases hp : concatPreds outs ((chunks o.bsz data).map fun b => b.map (net.evalEnv (ss.map fun s => s.q.fbw))) with
        | error e => rw [hp] at h; cases h
        | ok p => rw [hp] at h; cases h; rfl

/-- **C50**, factor at least 1: every layer's recorded range contains the one recorded with factor 1 (for the same model,
data and other options). -/
theorem C50_cover_widens (net : Net) (ts : List LTree) (outs : List ℕ) (bopsOf : ℕ → List LState → Except String ℚ)
    (o : TraceOpts) (ss ssOne ssC : List LState) (data : List (List (List ℚ))) (r r' : TraceRes) (hc : net.Clip ss)
    (hrst : o.rst = true) (hfac : 1 ≤ o.cover)
    (h1 : net.traceMinmax ts outs bopsOf { o with cover := 1 } ss data = .ok (ssOne, r))
    (h2 : net.traceMinmax ts outs bopsOf o ss data = .ok (ssC, r'))
    (i : ℕ) (a b : LState) (ha : ssOne[i]? = some a) (hb : ssC[i]? = some b) (e : ℕ) :
    b.q.mn e ≤ a.q.mn e ∧ a.q.mx e ≤ b.q.mx e := by
  obtain ⟨-, -, rfl⟩ := traceMinmax_states hc h1
  obtain ⟨-, -, rfl⟩ := traceMinmax_states hc h2
  exact traceStates_compare hc hrst Inside Inside.refl (fun nd a b h => adjust_inside h nd)
    (fun q s hg hs hcl => (cover_spec q.conf o.cover s hg hs hcl).1 hfac) ha hb e

/-- **C50**, factor at most 1: every layer's recorded range is contained in the one recorded with factor 1. -/
theorem C50_cover_narrows (net : Net) (ts : List LTree) (outs : List ℕ) (bopsOf : ℕ → List LState → Except String ℚ)
    (o : TraceOpts) (ss ssOne ssC : List LState) (data : List (List (List ℚ))) (r r' : TraceRes) (hc : net.Clip ss)
    (hrst : o.rst = true) (hfac : o.cover ≤ 1)
    (h1 : net.traceMinmax ts outs bopsOf { o with cover := 1 } ss data = .ok (ssOne, r))
    (h2 : net.traceMinmax ts outs bopsOf o ss data = .ok (ssC, r'))
    (i : ℕ) (a b : LState) (ha : ssOne[i]? = some a) (hb : ssC[i]? = some b) (e : ℕ) :
    a.q.mn e ≤ b.q.mn e ∧ b.q.mx e ≤ a.q.mx e := by
  obtain ⟨-, -, rfl⟩ := traceMinmax_states hc h1
  obtain ⟨-, hpos, rfl⟩ := traceMinmax_states hc h2
  exact traceStates_compare hc hrst (fun a b => Inside b a) (fun a => Inside.refl a) (fun nd a b h => adjust_inside h nd)
    (fun q s hg hs hcl => (cover_spec q.conf o.cover s hg hs hcl).2 hpos.le hfac) ha hb e

/-- **C50**: a factor that is not positive is refused. -/
theorem C50_cover_refused (net : Net) (ts : List LTree) (outs : List ℕ) (bopsOf : ℕ → List LState → Except String ℚ)
    (o : TraceOpts) (ss : List LState) (data : List (List (List ℚ))) (hc : net.Clip ss) (h : o.cover ≤ 0) :
    ∃ e, net.traceMinmax ts outs bopsOf o ss data = .error e := by
  cases hr : net.traceMinmax ts outs bopsOf o ss data with
  | error e => exact ⟨e, rfl⟩
  | ok x =>
    obtain ⟨ss', r⟩ := x
    obtain ⟨-, h', -⟩ := traceMinmax_states hc hr
    linarith

example : rangeOf 0 0 (exOne.traceMinmax [.layer 0] [1] (fun _ _ => .ok 0) {} [exQzState] [[[1]], [[-3]]]) = range (-3) 1 ∧
    rangeOf 0 0 (exOne.traceMinmax [.layer 0] [1] (fun _ _ => .ok 0) { cover := 3 / 2 } [exQzState] [[[1]], [[-3]]]) =
      range (-4) 2 ∧
    rangeOf 0 0 (exOne.traceMinmax [.layer 0] [1] (fun _ _ => .ok 0) { cover := 1 / 3 } [exQzState] [[[1]], [[-3]]]) =
      range (-7 / 4) (-1 / 4) := by decide +kernel

/-! ### C49 -/

/-- layer `i` is in the model, at any depth -/
inductive InModel (i : ℕ) : List LTree → Prop
  | here {ts : List LTree} (h : LTree.layer i ∈ ts) : InModel i ts
  | nested {ts ts' : List LTree} (h : LTree.model ts' ∈ ts) (h' : InModel i ts') : InModel i ts

/-- quantized values at element `e` of the quantizer `q` of layer `i` when the model is run on `data` -/
def LayerValue (net : Net) (ss : List LState) (data : List (List (List ℚ))) (i : ℕ) (q : QSite) (e : ℕ) (v : ℚ) : Prop :=
  ∃ nd ins, net[i]? = some (nd, ins) ∧ ∃ x ∈ data, ∃ p < prodL q.outShape, q.elem p = e ∧
    v = nd.quantAt q ((ss.map fun s => s.q.fbw).getD i fun _ => 0)
      (gather (Net.evalEnv (net.take i) (ss.map fun s => s.q.fbw) x) ins) p

theorem le_reduceMin_iff (e : ℕ) (ps : List (ℕ × ℚ)) (b : WithTop ℚ) :
    b ≤ reduceMin e ps ↔ ∀ v, (e, v) ∈ ps → b ≤ (v : WithTop ℚ) := by
  constructor
  · intro h v hv; exact le_trans h (reduceMin_le hv)
  · intro h
    cases hr : reduceMin e ps with
    | top => exact le_top
    | coe m => exact h m (reduceMin_mem hr)

theorem reduceMax_le_iff (e : ℕ) (ps : List (ℕ × ℚ)) (b : WithBot ℚ) :
    reduceMax e ps ≤ b ↔ ∀ v, (e, v) ∈ ps → (v : WithBot ℚ) ≤ b := by
  constructor
  · intro h v hv; exact le_trans (le_reduceMax hv) h
  · intro h
    cases hr : reduceMax e ps with
    | bot => exact bot_le
    | coe m => exact h m (reduceMax_mem hr)

theorem mem_values {nd : Node} {q : QSite} (hq : nd.site = some q) (fbw : ℕ → ℚ) (insB : List (List (List ℚ))) (e : ℕ) (v : ℚ) :
    (e, v) ∈ batchPairs q.elem ((insB.map (nd.pre fbw)).map (qSample q.conf q.elem fbw)) ↔
      ∃ ins ∈ insB, ∃ p < prodL q.outShape, q.elem p = e ∧ v = nd.quantAt q fbw ins p := by
  have hpz : ∀ ins, qSample q.conf q.elem fbw (nd.pre fbw ins) = (List.range (prodL q.outShape)).map (nd.quantAt q fbw ins) := by
    intro ins
    have : nd.pre fbw ins = (List.range (prodL q.outShape)).map (nd.preAt fbw ins) := by
      unfold Node.pre; rw [hq]
    rw [this, qSample_range]; rfl
  rw [mem_batchPairs]
  constructor
  · rintro ⟨y, hy, p, h1, h2⟩
    rw [List.map_map, List.mem_map] at hy
    obtain ⟨ins, hins, rfl⟩ := hy
    simp only [Function.comp, hpz] at h1
    rw [List.getElem?_map, Option.map_eq_some_iff] at h1
    obtain ⟨p', hp', rfl⟩ := h1
    rw [List.getElem?_eq_some_iff] at hp'
    obtain ⟨hlt, hp'⟩ := hp'
    simp at hlt hp'
    subst hp'
    exact ⟨ins, hins, p, hlt, h2, rfl⟩
  · rintro ⟨ins, hins, p, hp, h2, rfl⟩
    refine ⟨_, by rw [List.map_map, List.mem_map]; exact ⟨ins, hins, rfl⟩, p, ?_, h2⟩
    simp only [Function.comp, hpz]
    rw [List.getElem?_map, List.getElem?_range hp]
    rfl

/-- **C49** (partial): for every layer listed in `model.layers` itself, `trace_minmax` forgets what was recorded before and
records exactly the extrema of the values of its dataset (softmax, sigmoid and tanh layers: see C50, C63). Missing: layers of
nested models, which are neither reset nor recorded (`C49_nested_not_traced`). -/
theorem C49_listed_layers_partial (net : Net) (ts : List LTree) (outs : List ℕ)
    (bopsOf : ℕ → List LState → Except String ℚ) (o : TraceOpts) (ss ss' : List LState) (data : List (List (List ℚ)))
    (r : TraceRes) (hc : net.Clip ss) (hrst : o.rst = true) (hcov : o.cover = 1)
    (h : net.traceMinmax ts outs bopsOf o ss data = .ok (ss', r))
    (i : ℕ) (hi : LTree.layer i ∈ ts) (nd : Node) (ins : List ℕ) (hn : net[i]? = some (nd, ins)) (q : QSite)
    (hq : nd.site = some q) (hact : ∀ k φ q', nd = .activation k φ q' → k = .other) :
    ∃ s', ss'[i]? = some s' ∧ ∀ e,
      (∀ b : WithTop ℚ, b ≤ s'.q.mn e ↔ ∀ v, LayerValue net ss data i q e v → b ≤ (v : WithTop ℚ)) ∧
      (∀ b : WithBot ℚ, s'.q.mx e ≤ b ↔ ∀ v, LayerValue net ss data i q e v → (v : WithBot ℚ) ≤ b) := by
  have hI : i ∈ topLayers ts := by
    clear h
    induction ts with
    | nil => simp at hi
    | cons t ts ih =>
      rcases List.mem_cons.mp hi with h | h
      · subst h; simp [topLayers]
      · cases t with
        | layer j => simp [topLayers, ih h]
        | model l => simpa [topLayers] using ih h
  obtain ⟨-, -, rfl⟩ := traceMinmax_states hc h
  have hlen := Net.AllS.length hc
  have hil : i < ss.length := by rw [hlen]; exact (List.getElem?_eq_some_iff.mp hn).1
  have hss := List.getElem?_eq_getElem hil
  have hsite : nd.site.isSome = true := by rw [hq]; rfl
  have hadj : ∀ a, nd.adjust a = a := by
    intro a
    cases nd with
    | activation k φ q' => rw [hact k φ q' rfl]; rfl
    | _ => rfl
  have h0 : (net.forLayers (topLayers ts) (fun _ => startRecording) ss)[i]? = some (startRecording ss[i]) := by
    rw [forLayers_get, hn, hss]; simp [hI, hsite]
  have h1 := afterL_get net _ data i nd ins _ hn h0
  have h3 : ∀ (f : Node → LState → LState) (S : List LState) (s : LState), S[i]? = some s →
      (net.forLayers (topLayers ts) f S)[i]? = some (f nd s) := by
    intro f S s hs
    rw [forLayers_get, hn, hs]; simp [hI, hsite]
  have hfb : (net.forLayers (topLayers ts) (fun _ => startRecording) ss).map (fun s => s.q.fbw) = ss.map fun s => s.q.fbw := by
    apply List.ext_getElem?
    intro j
    rw [List.getElem?_map, List.getElem?_map, forLayers_get]
    cases hnj : net[j]? with
    | none =>
      have : ss[j]? = none := by rw [List.getElem?_eq_none_iff] at *; omega
      simp [this]
    | some ni =>
      cases hs : ss[j]? with
      | none => simp
      | some s =>
        simp only [Option.map_some]
        split_ifs <;> rfl
  have hfin : ∃ rec, (net.traceStates (topLayers ts) o ss data)[i]? = some ⟨nd.after (startRecording ss[i]).q true
      (data.map fun env => gather (Net.evalEnv (net.take i) (ss.map fun s => s.q.fbw) env) ins), rec⟩ := by
    unfold Net.traceStates
    simp only [hrst, if_true, hcov, ne_eq, not_true, if_false]
    have h4 := h3 (fun nd s => ⟨nd.adjust s.q, s.recording⟩) _ _ h1
    rw [hfb] at h4
    simp only [hadj] at h4
    cases o.noBops
    · simp only [Bool.false_eq_true, if_false]
      exact ⟨false, h3 (fun _ s => ⟨s.q, false⟩) _ _ h4⟩
    · simp only [if_true]
      exact ⟨_, h4⟩
  obtain ⟨rec, hfin⟩ := hfin
  refine ⟨_, hfin, fun e => ?_⟩
  have hval : ∀ v, LayerValue net ss data i q e v ↔ ∃ ins' ∈ (data.map fun env => gather (Net.evalEnv (net.take i)
      (ss.map fun s => s.q.fbw) env) ins), ∃ p < prodL q.outShape, q.elem p = e ∧ v = nd.quantAt q ss[i].q.fbw ins' p := by
    intro v
    have hg : (ss.map fun s => s.q.fbw).getD i (fun _ => 0) = ss[i].q.fbw := by
      rw [List.getD_eq_getElem?_getD, List.getElem?_map, hss]; rfl
    constructor
    · rintro ⟨nd', ins', h1, x, hx, p, hp, he, hv⟩
      rw [hn] at h1; cases h1
      rw [hg] at hv
      exact ⟨_, List.mem_map.mpr ⟨x, hx, rfl⟩, p, hp, he, hv⟩
    · rintro ⟨ins', hins, p, hp, he, hv⟩
      obtain ⟨x, hx, rfl⟩ := List.mem_map.mp hins
      exact ⟨nd, ins, hn, x, hx, p, hp, he, by rw [hg]; exact hv⟩
  have hst : nd.after (startRecording ss[i]).q true (data.map fun env => gather (Net.evalEnv (net.take i)
      (ss.map fun s => s.q.fbw) env) ins) = (startRecording ss[i]).q.record q.elem (((data.map fun env => gather
        (Net.evalEnv (net.take i) (ss.map fun s => s.q.fbw) env) ins).map (nd.pre (startRecording ss[i]).q.fbw)).map
        (qSample q.conf q.elem (startRecording ss[i]).q.fbw)) := by
    unfold Node.after; rw [hq]; rfl
  simp only [hst]
  constructor
  · intro b
    show b ≤ min (reduceMin e _) ⊤ ↔ _
    rw [min_eq_left le_top, le_reduceMin_iff]
    simp only [hval]
    exact forall_congr' fun v => imp_congr_left (mem_values hq _ _ e v)
  · intro b
    show max (reduceMax e _) ⊥ ≤ b ↔ _
    rw [max_eq_left bot_le, reduceMax_le_iff]
    simp only [hval]
    exact forall_congr' fun v => imp_congr_left (mem_values hq _ _ e v)

/-- C49 is false for a quantizer inside a nested model: nothing is recorded by `trace_minmax`, an older range is kept, and
`to_proxy_model` refuses a model that was never recorded otherwise. -/
theorem C49_nested_not_traced :
    let ts := [LTree.model [.layer 0]]
    let t := exOne.traceMinmax ts [1] (fun _ _ => .ok 0) {} [exQzState] [[[1]], [[-3]]]
    let old : LState := ⟨⟨fun _ => 2, fun _ => ((-7 : ℚ) : WithTop ℚ), fun _ => ((-6 : ℚ) : WithBot ℚ)⟩, false⟩
    rangeOf 0 0 t = some (⊤, ⊥) ∧
    (match exOne.toProxy .WRAP ((statesOf t).map LState.q) with | .ok _ => true | .error _ => false) = false ∧
    rangeOf 0 0 (exOne.traceMinmax ts [1] (fun _ _ => .ok 0) {} [old] [[[1]], [[-3]]]) = range (-7) (-6) := by
  decide +kernel

/-- C49 fails for every layer of a nested model: whatever the options and the data, `trace_minmax` leaves it exactly as it
was, if it was not recording (which nothing but `trace_minmax` on the nested model itself makes it do). -/
theorem C49_nested_untouched (net : Net) (ts : List LTree) (outs : List ℕ)
    (bopsOf : ℕ → List LState → Except String ℚ) (o : TraceOpts) (ss ss' : List LState) (data : List (List (List ℚ)))
    (r : TraceRes) (hc : net.Clip ss) (h : net.traceMinmax ts outs bopsOf o ss data = .ok (ss', r))
    (i : ℕ) (hi : LTree.layer i ∉ ts) (hrec : ∀ s, ss[i]? = some s → s.recording = false) : ss'[i]? = ss[i]? := by
  have hI : i ∉ topLayers ts := by
    clear h
    induction ts with
    | nil => simp [topLayers]
    | cons t ts ih =>
      have := ih (fun h => hi (List.mem_cons_of_mem _ h))
      cases t with
      | layer j =>
        have hj : i ≠ j := fun e => hi (by rw [e]; exact List.mem_cons_self ..)
        simp [topLayers, this, hj]
      | model l => simpa [topLayers] using this
  have hb : 0 < o.bsz := by
    rcases Nat.eq_zero_or_pos o.bsz with h0 | h0
    · unfold Net.traceMinmax at h
      simp only [bind, Except.bind, if_pos h0] at h
      cases h
    · exact h0
  have hs0 : net.Clip (if o.rst then net.forLayers (topLayers ts) (fun _ => startRecording) ss else ss) := by
    split_ifs
    · exact clip_start hc _
    · exact hc
  have hcov : 0 < o.cover := by
    by_contra hcn
    unfold Net.traceMinmax at h
    simp only [bind, Except.bind, pure, Except.pure] at h
    rw [if_neg (by omega), Net.runBatches_eq net _ _ hs0] at h
    simp only at h
    rw [if_pos ⟨fun e => hcn (by rw [e]; norm_num), hcn⟩] at h
    cases h
  rw [Net.traceMinmax_eq net ts outs bopsOf o ss data hc hb hcov] at h
  have : ss' = net.traceStates (topLayers ts) o ss data := by
    simp only [bind, Except.bind, pure, Except.pure] at h
    cases hno : o.noBops with
    | true => rw [hno] at h; simp only [if_true] at h; cases h; rfl
    | false =>
      rw [hno] at h
      simp only [Bool.false_eq_true, if_false] at h
      cases hs : sumBops bopsOf (net.traceStates (topLayers ts) o ss data) (net.hLayers (topLayers ts)) with
      | error e => rw [hs] at h; cases h
      | ok b =>
        rw [hs] at h
        simp only at h
        split_ifs at h
        · revert h
          generalize concatPreds outs _ = P
          intro h
          cases P with
          | error e => cases h
          | ok p => cases h; rfl
        · cases h; rfl
  rw [this]
  exact traceStates_other (Net.AllS.length hc) hI hrec

/-- the hypotheses of `C49_nested_untouched`: the quantizer of a nested model -/
example (ss' : List LState) (r : TraceRes)
    (h : exOne.traceMinmax [.model [.layer 0]] [1] (fun _ _ => .ok 0) {} [exQzState] [[[1]], [[-3]]] = .ok (ss', r)) :
    ss'[0]? = some exQzState :=
  C49_nested_untouched exOne [.model [.layer 0]] [1] _ {} [exQzState] ss' _ r exOne_clip h 0 (by simp)
    (fun s hs => by simp at hs; rw [← hs]; rfl)

example : ∀ q ∈ [exQz], ∃ s', (statesOf (exOne.traceMinmax [.layer 0] [1] (fun _ _ => .ok 0) {} [exQzState] [[[1]], [[-3]]]))[0]? =
    some s' ∧ (s'.q.mn 0 = ((-3 : ℚ) : WithTop ℚ)) := by
  intro q hq
  exact ⟨_, rfl, by decide +kernel⟩

/-! ### C49: `reset_minmax` -/

mutual
theorem resetOne_get (net : Net) (i : ℕ) : ∀ (t : LTree) (ss : List LState),
    (∀ {nd ins}, net[i]? = some (nd, ins) → nd.site.isSome → InModel i [t] →
      (net.resetOne t ss)[i]? = ss[i]?.map fun s => ⟨s.q.reset, s.recording⟩) ∧
    (¬ InModel i [t] → (net.resetOne t ss)[i]? = ss[i]?) ∧
    ((∀ nd ins, net[i]? = some (nd, ins) → nd.site.isSome = false) → (net.resetOne t ss)[i]? = ss[i]?)
  | .layer j, ss => by
    have hin : InModel i [LTree.layer j] ↔ i = j := by
      constructor
      · rintro (h | ⟨h, _⟩)
        · simpa using h
        · simp at h
      · rintro rfl; exact .here (by simp)
    unfold Net.resetOne
    refine ⟨fun {nd ins} hn hs h => ?_, fun h => ?_, fun hs => ?_⟩
    · obtain rfl := hin.mp h
      rw [hn]; simp [hs]
    · have hne : j ≠ i := fun e => h (hin.mpr e.symm)
      cases hn : net[j]? with
      | none => rfl
      | some ni =>
        simp only
        split_ifs
        · rw [List.getElem?_modify]; simp [hne]
        · rfl
    · by_cases hne : j = i
      · subst hne
        cases hn : net[j]? with
        | none => rfl
        | some ni => simp [hs ni.1 ni.2 hn]
      · cases hn : net[j]? with
        | none => rfl
        | some ni =>
          simp only
          split_ifs
          · rw [List.getElem?_modify]; simp [hne]
          · rfl
  | .model ts, ss => by
    have hin : InModel i [LTree.model ts] ↔ InModel i ts := by
      constructor
      · rintro (h | ⟨h, h'⟩)
        · simp at h
        · simp at h; subst h; exact h'
      · intro h; exact .nested (ts' := ts) (by simp) h
    unfold Net.resetOne
    rw [hin]
    exact resetMinmax_get net i ts ss
theorem resetMinmax_get (net : Net) (i : ℕ) : ∀ (ts : List LTree) (ss : List LState),
    (∀ {nd ins}, net[i]? = some (nd, ins) → nd.site.isSome → InModel i ts →
      (net.resetMinmax ts ss)[i]? = ss[i]?.map fun s => ⟨s.q.reset, s.recording⟩) ∧
    (¬ InModel i ts → (net.resetMinmax ts ss)[i]? = ss[i]?) ∧
    ((∀ nd ins, net[i]? = some (nd, ins) → nd.site.isSome = false) → (net.resetMinmax ts ss)[i]? = ss[i]?)
  | [], ss => by
    have hin : ¬ InModel i [] := by rintro (h | ⟨h, _⟩) <;> simp at h
    unfold Net.resetMinmax
    exact ⟨fun _ _ h => absurd h hin, fun _ => rfl, fun _ => rfl⟩
  | t :: ts, ss => by
    have hin : InModel i (t :: ts) ↔ InModel i [t] ∨ InModel i ts := by
      constructor
      · rintro (h | ⟨h, h'⟩)
        · rcases List.mem_cons.mp h with h | h
          · exact .inl (.here (by simp [h]))
          · exact .inr (.here h)
        · rcases List.mem_cons.mp h with h | h
          · exact .inl (.nested (by simp [h]) h')
          · exact .inr (.nested h h')
      · rintro ((h | ⟨h, h'⟩) | (h | ⟨h, h'⟩))
        · exact .here (by simp at h; simp [h])
        · exact .nested (by simp at h; simp [h]) h'
        · exact .here (List.mem_cons_of_mem _ h)
        · exact .nested (List.mem_cons_of_mem _ h) h'
    obtain ⟨a1, a2, a3⟩ := resetOne_get net i t ss
    obtain ⟨b1, b2, b3⟩ := resetMinmax_get net i ts (net.resetOne t ss)
    unfold Net.resetMinmax
    refine ⟨fun {nd ins} hn hs h => ?_, fun h => ?_, fun hs => ?_⟩
    · have hidem : ∀ o : Option LState, (o.map fun s => (⟨s.q.reset, s.recording⟩ : LState)).map
          (fun s => (⟨s.q.reset, s.recording⟩ : LState)) = o.map fun s => (⟨s.q.reset, s.recording⟩ : LState) := by
        intro o; cases o <;> rfl
      by_cases h1 : InModel i [t]
      · by_cases h2 : InModel i ts
        · rw [b1 hn hs h2, a1 hn hs h1, hidem]
        · rw [b2 h2, a1 hn hs h1]
      · rw [b1 hn hs ((hin.mp h).resolve_left h1), a2 h1]
    · rw [hin, not_or] at h
      rw [b2 h.2, a2 h.1]
    · rw [b3 hs, a3 hs]
end

/-- **C49**, `ResetMinMax`: every quantizer of the model, at any depth of nesting, is back to "nothing recorded" with its
bitwidths unchanged, and quantizers of layers outside the model keep their state. -/
theorem C49_reset_reaches_nested (net : Net) (ts : List LTree) (ss : List LState) (i : ℕ) (nd : Node) (ins : List ℕ)
    (s : LState) (hn : net[i]? = some (nd, ins)) (hq : nd.site.isSome) (hs : ss[i]? = some s) :
    (InModel i ts → (net.resetMinmax ts ss)[i]? = some ⟨⟨s.q.fbw, fun _ => ⊤, fun _ => ⊥⟩, s.recording⟩) ∧
    (¬ InModel i ts → (net.resetMinmax ts ss)[i]? = some s) := by
  refine ⟨fun h => ?_, fun h => ?_⟩
  · rw [(resetMinmax_get net i ts ss).1 hn hq h, hs]; rfl
  · rw [(resetMinmax_get net i ts ss).2.1 h, hs]

example : InModel 0 [.model [.model [.layer 0]]] :=
  .nested (ts' := [.model [.layer 0]]) (by simp) (.nested (ts' := [.layer 0]) (by simp) (.here (by simp)))

/-! ### C26 for `trace_minmax` itself -/

theorem inRange_of_get : ∀ {net : Net} {ss : List LState} {env : List (List ℚ)}, ss.length = net.length →
    (∀ (i : ℕ) (nd : Node) (ins : List ℕ) (s : LState), net[i]? = some (nd, ins) → ss[i]? = some s →
      nd.InRange s.q (gather (Net.evalEnv (net.take i) (ss.map fun s => s.q.fbw) env) ins)) →
    net.InRange (ss.map LState.q) env
  | [], [], _, _, _ => trivial
  | (nd, ins) :: net, s :: ss, env, hl, h => by
    refine ⟨by simpa [Net.evalEnv] using h 0 nd ins s rfl rfl, ?_⟩
    apply inRange_of_get (by simpa using hl)
    intro i nd' ins' s' hn hs
    have := h (i + 1) nd' ins' s' (by simpa using hn) (by simpa using hs)
    simpa [Net.evalEnv] using this

theorem all_of_get {P : Node → QState → Prop} {net : Net} {ss : List LState} (hl : ss.length = net.length)
    (h : ∀ (i : ℕ) ni s, net[i]? = some ni → ss[i]? = some s → P ni.1 s.q) : net.All P (ss.map LState.q) :=
  (allS_iff P net ss).mp (allS_iff_get.mpr ⟨hl, h⟩)

theorem mem_topLayers {i : ℕ} {ts : List LTree} (hi : LTree.layer i ∈ ts) : i ∈ topLayers ts := by
  induction ts with
  | nil => simp at hi
  | cons t ts ih =>
    rcases List.mem_cons.mp hi with h | h
    · subst h; simp [topLayers]
    · cases t with
      | layer j => simp [topLayers, ih h]
      | model l => simpa [topLayers] using ih h

theorem start_fbw {net : Net} {ss : List LState} (hlen : ss.length = net.length) (I : List ℕ) :
    (net.forLayers I (fun _ => startRecording) ss).map (fun s => s.q.fbw) = ss.map fun s => s.q.fbw := by
  apply List.ext_getElem?
  intro j
  rw [List.getElem?_map, List.getElem?_map, forLayers_get]
  cases hnj : net[j]? with
  | none =>
    have : ss[j]? = none := by rw [List.getElem?_eq_none_iff] at *; omega
    simp [this]
  | some ni =>
    cases hs : ss[j]? with
    | none => simp
    | some s =>
      simp only [Option.map_some]
      split_ifs <;> rfl

/-- final state of a listed layer -/
theorem traceStates_get {net : Net} {ts : List LTree} {o : TraceOpts} {ss : List LState} {data : List (List (List ℚ))}
    (hlen : ss.length = net.length) (hrst : o.rst = true) {i : ℕ} {nd : Node} {ins : List ℕ} {s : LState}
    (hn : net[i]? = some (nd, ins)) (hs : ss[i]? = some s) {q : QSite} (hq : nd.site = some q) (hi : LTree.layer i ∈ ts) :
    ∃ rec, (net.traceStates (topLayers ts) o ss data)[i]? =
      some ⟨nd.adjust (if o.cover ≠ 1 then q.conf.cover o.cover (nd.after s.q.reset true
        (data.map fun env => gather (Net.evalEnv (net.take i) (ss.map fun s => s.q.fbw) env) ins)) else nd.after s.q.reset true
        (data.map fun env => gather (Net.evalEnv (net.take i) (ss.map fun s => s.q.fbw) env) ins)), rec⟩ := by
  have hI := mem_topLayers hi
  have hsite : nd.site.isSome = true := by rw [hq]; rfl
  have h3 : ∀ (f : Node → LState → LState) (S : List LState) (s : LState), S[i]? = some s →
      (net.forLayers (topLayers ts) f S)[i]? = some (f nd s) := by
    intro f S s hs
    rw [forLayers_get, hn, hs]; simp [hI, hsite]
  have h1 := afterL_get net _ data i nd ins _ hn (h3 (fun _ => startRecording) ss s hs)
  rw [start_fbw hlen] at h1
  have hcov : ∀ s : LState, Node.cover o.cover nd s = ⟨q.conf.cover o.cover s.q, s.recording⟩ := by
    intro s; unfold Node.cover; rw [hq]
  have h2 : (if o.cover ≠ 1 then net.forLayers (topLayers ts) (Node.cover o.cover) (net.afterL (net.forLayers (topLayers ts)
      (fun _ => startRecording) ss) data) else net.afterL (net.forLayers (topLayers ts) (fun _ => startRecording) ss) data)[i]? =
      some ⟨if o.cover ≠ 1 then q.conf.cover o.cover (nd.after s.q.reset true
        (data.map fun env => gather (Net.evalEnv (net.take i) (ss.map fun s => s.q.fbw) env) ins)) else nd.after s.q.reset true
        (data.map fun env => gather (Net.evalEnv (net.take i) (ss.map fun s => s.q.fbw) env) ins), true⟩ := by
    by_cases hc : o.cover ≠ 1
    · simp only [if_pos hc]
      rw [h3 _ _ _ h1, hcov]
      rfl
    · simp only [if_neg hc]
      exact h1
  have h4 := h3 (fun nd s => ⟨nd.adjust s.q, s.recording⟩) _ _ h2
  unfold Net.traceStates
  simp only [hrst, if_true]
  cases o.noBops
  · exact ⟨false, h3 (fun _ s => ⟨s.q, false⟩) _ _ h4⟩
  · exact ⟨_, h4⟩

theorem traceStates_length {net : Net} {I : List ℕ} {o : TraceOpts} {ss : List LState} {data : List (List (List ℚ))}
    (hlen : ss.length = net.length) : (net.traceStates I o ss data).length = net.length := by
  have hf : ∀ (f : Node → LState → LState) (S : List LState), S.length = net.length → (net.forLayers I f S).length = net.length :=
    fun f S h => forLayersFrom_length I f 0 net S h
  have ha : ∀ (S : List LState), S.length = net.length → (net.afterL S data).length = net.length := by
    intro S h
    have := congrArg List.length (afterL_fbw net S data h)
    simpa [h] using this
  have h1 : (if o.rst then net.forLayers I (fun _ => startRecording) ss else ss).length = net.length := by
    split_ifs
    · exact hf _ _ hlen
    · exact hlen
  have h2 := ha _ h1
  unfold Net.traceStates
  simp only
  generalize (net.afterL (if o.rst then net.forLayers I (fun _ => startRecording) ss else ss) data) = S at h2
  have h3 : (if o.cover ≠ 1 then net.forLayers I (Node.cover o.cover) S else S).length = net.length := by
    split_ifs
    · exact hf _ _ h2
    · exact h2
  split_ifs
  all_goals first
    | exact hf _ _ (by assumption)
    | exact hf _ _ (hf _ _ (by assumption))
    | exact hf _ _ (hf _ _ (hf _ _ (by assumption)))

/-- the bitwidths are not changed by `trace_minmax` -/
theorem traceStates_fbw {net : Net} {I : List ℕ} {o : TraceOpts} {ss : List LState} {data : List (List (List ℚ))}
    (hc : net.Clip ss) : (net.traceStates I o ss data).map (fun s => s.q.fbw) = ss.map fun s => s.q.fbw := by
  have hf : ∀ (f : Node → LState → LState) (S : List LState), (∀ nd s, nd.Clipped s.q → (f nd s).q.fbw = s.q.fbw) →
      net.Clip S → (net.forLayers I f S).map (fun s => s.q.fbw) = S.map (fun s => s.q.fbw) ∧ net.Clip (net.forLayers I f S) := by
    intro f S hff hS
    refine ⟨?_, Net.AllS.forLayersFrom (fun nd s h => fun q hq e => by rw [hff nd s h]; exact h q hq e) 0 hS⟩
    have hlen := Net.AllS.length hS
    have hget := (allS_iff_get.mp hS).2
    apply List.ext_getElem?
    intro j
    rw [List.getElem?_map, List.getElem?_map, forLayers_get]
    cases hnj : net[j]? with
    | none =>
      have : S[j]? = none := by rw [List.getElem?_eq_none_iff] at *; omega
      simp [this]
    | some ni =>
      cases hs : S[j]? with
      | none => simp
      | some s =>
        simp only [Option.map_some]
        split_ifs
        · rw [hff ni.1 s (hget j ni s hnj hs)]
        · rfl
  have hcov : ∀ nd (s : LState), nd.Clipped s.q → (Node.cover o.cover nd s).q.fbw = s.q.fbw := by
    intro nd s h
    unfold Node.cover
    cases hq : nd.site with
    | none => rfl
    | some q => exact funext fun e => h q hq e
  have h0 : (if o.rst then net.forLayers I (fun _ => startRecording) ss else ss).map (fun s => s.q.fbw) =
      ss.map (fun s => s.q.fbw) ∧ net.Clip (if o.rst then net.forLayers I (fun _ => startRecording) ss else ss) := by
    split_ifs
    · exact hf _ _ (fun _ _ _ => rfl) hc
    · exact ⟨rfl, hc⟩
  have h1 := afterL_fbw net _ data (Net.AllS.length h0.2)
  have h1c := clip_after h0.2 data
  rw [h0.1] at h1
  unfold Net.traceStates
  simp only
  generalize (net.afterL (if o.rst then net.forLayers I (fun _ => startRecording) ss else ss) data) = S at h1 h1c
  have h2 : (if o.cover ≠ 1 then net.forLayers I (Node.cover o.cover) S else S).map (fun s => s.q.fbw) =
      ss.map (fun s => s.q.fbw) ∧ net.Clip (if o.cover ≠ 1 then net.forLayers I (Node.cover o.cover) S else S) := by
    split_ifs
    · have := hf _ _ hcov h1c
      exact ⟨by rw [this.1, h1], this.2⟩
    · exact ⟨h1, h1c⟩
  generalize (if o.cover ≠ 1 then net.forLayers I (Node.cover o.cover) S else S) = T at h2
  have h3 := hf (fun nd s => ⟨nd.adjust s.q, s.recording⟩) T (fun nd s _ => adjust_fbw nd s.q) h2.2
  rw [h2.1] at h3
  split_ifs
  · exact h3.1
  · have := hf (fun _ s => ⟨s.q, false⟩) _ (fun _ _ _ => rfl) h3.2
    rw [this.1, h3.1]

/-- states after tracing, when all layers with quantizers are listed -/
theorem traceStates_spec {net : Net} {ts : List LTree} {o : TraceOpts} {ss : List LState} {data : List (List (List ℚ))}
    (hw : net.All Node.WF (ss.map LState.q)) (hrst : o.rst = true) (hcov : 1 ≤ o.cover)
    (hlist : ∀ (i : ℕ) nd ins, net[i]? = some (nd, ins) → nd.site.isSome → LTree.layer i ∈ ts) :
    net.All Node.WF ((net.traceStates (topLayers ts) o ss data).map LState.q) ∧
    (∀ x ∈ data, net.InRange ((net.traceStates (topLayers ts) o ss data).map LState.q) x) ∧
    ∀ (i : ℕ) ni s, net[i]? = some ni → (net.traceStates (topLayers ts) o ss data)[i]? = some s → ni.1.site.isSome → GridState s.q := by
  have hwS : net.AllS (fun nd s => nd.WF s.q) ss := (allS_iff Node.WF net ss).mpr hw
  have hc : net.Clip ss := Net.AllS.imp (fun nd s h => h.clip) hwS
  have hlen := Net.AllS.length hc
  have hlen' := traceStates_length (I := topLayers ts) (o := o) (data := data) hlen
  have hfbw := traceStates_fbw (I := topLayers ts) (o := o) (data := data) hc
  have hget := (allS_iff_get.mp hwS).2
  have hs0 : ∀ i : ℕ, ∀ ni, net[i]? = some ni → ∃ s, ss[i]? = some s := by
    intro i ni hn
    have : i < ss.length := by rw [hlen]; exact (List.getElem?_eq_some_iff.mp hn).1
    exact ⟨_, List.getElem?_eq_getElem this⟩
  have hfb1 : ∀ (i : ℕ) s s', ss[i]? = some s → (net.traceStates (topLayers ts) o ss data)[i]? = some s' → s'.q.fbw = s.q.fbw := by
    intro i s s' h1 h2
    have := congrArg (fun l => l[i]?) hfbw
    simp only [List.getElem?_map, h1, h2, Option.map_some, Option.some.injEq] at this
    exact this
  -- a listed layer
  have key : ∀ (i : ℕ) nd ins s s' q, net[i]? = some (nd, ins) → ss[i]? = some s →
      (net.traceStates (topLayers ts) o ss data)[i]? = some s' → nd.site = some q → GridState s'.q ∧
      ∀ x ∈ data, nd.InRange s'.q (gather (Net.evalEnv (net.take i) (ss.map fun s => s.q.fbw) x) ins) := by
    intro i nd ins s s' q hn hs hs' hq
    obtain ⟨rec, hrec⟩ := traceStates_get (o := o) (data := data) hlen hrst hn hs hq (hlist i nd ins hn (by rw [hq]; rfl))
    rw [hs'] at hrec
    have hse : s' = _ := Option.some.inj hrec
    have hwi : nd.WF s.q := hget i _ s hn hs
    set insB := data.map fun env => gather (Net.evalEnv (net.take i) (ss.map fun s => s.q.fbw) env) ins with hinsB
    set s1 := nd.after s.q.reset true insB with hs1
    have hf1 : s1.fbw = s.q.fbw := (nd.after_ext _ _ _).fbw
    have hg1 : GridState s1 := nd.after_grid _ _ _ (gridState_reset s.q)
    have hsa1 : Sane s1 := Node.after_sane nd _ _ _ (sane_reset s.q)
    have hcl : ∀ e, q.conf.clip (s1.fbw e) = s1.fbw e := by rw [hf1]; exact hwi.clip q hq
    have hr1 : ∀ x ∈ data, nd.InRange s1 (gather (Net.evalEnv (net.take i) (ss.map fun s => s.q.fbw) x) ins) :=
      fun x hx => nd.after_inRange _ _ (List.mem_map.mpr ⟨x, hx, rfl⟩)
    set s2 := (if o.cover ≠ 1 then q.conf.cover o.cover s1 else s1) with hs2
    have hx2 : Ext s1 s2 ∧ GridState s2 := by
      rw [hs2]
      split_ifs
      · have := (cover_spec q.conf o.cover s1 hg1 hsa1 hcl).1 hcov
        exact ⟨⟨funext hcl, fun e => (this e).1, fun e => (this e).2⟩, cover_grid _ _ _ hg1 hcl⟩
      · exact ⟨Ext.refl s1, hg1⟩
    have hw2 : nd.WF s2 := hwi.congr (by rw [hx2.1.fbw, hf1])
    rw [hse]
    exact ⟨adjust_grid hw2 hx2.2, fun x hx => adjust_inRange hw2 ((hr1 x hx).ext hx2.1)⟩
  refine ⟨?_, ?_, ?_⟩
  · apply all_of_get hlen'
    intro i ni s' hn hs'
    obtain ⟨s, hs⟩ := hs0 i ni hn
    exact (hget i ni s hn hs).congr (hfb1 i s s' hs hs')
  · intro x hx
    apply inRange_of_get hlen'
    intro i nd ins s' hn hs'
    obtain ⟨s, hs⟩ := hs0 i _ hn
    rw [hfbw]
    cases hq : nd.site with
    | none => intro q hq'; rw [hq] at hq'; cases hq'
    | some q => exact (key i nd ins s s' q hn hs hs' hq).2 x hx
  · intro i ni s' hn hs' hsite
    obtain ⟨s, hs⟩ := hs0 i _ hn
    obtain ⟨q, hq⟩ := Option.isSome_iff_exists.mp hsite
    exact (key i ni.1 ni.2 s s' q hn hs hs' hq).1

/-- **C26** for `trace_minmax` with all its options (any batch size, any cover factor of at least 1, with or without BOPs
and predictions): when it returns, on a model whose quantizers are all in layers it lists, and the ranges recorded are
below `2^32`, `to_proxy_model` succeeds and computes the same tensors as the model on every sample of the dataset. -/
theorem C26_trace_minmax (net : Net) (ts : List LTree) (outs : List ℕ) (bopsOf : ℕ → List LState → Except String ℚ)
    (o : TraceOpts) (ss ss' : List LState) (data : List (List (List ℚ))) (r : TraceRes) (aggressive : Bool)
    (hw : net.All Node.WF (ss.map LState.q)) (hrst : o.rst = true) (hcov : 1 ≤ o.cover)
    (hlist : ∀ (i : ℕ) nd ins, net[i]? = some (nd, ins) → nd.site.isSome → LTree.layer i ∈ ts) (hne : data ≠ [])
    (h : net.traceMinmax ts outs bopsOf o ss data = .ok (ss', r)) (hb : net.All Bounded (ss'.map LState.q)) :
    ∃ pm, net.toProxy (proxySat aggressive) (ss'.map LState.q) = .ok pm ∧
      ∀ x ∈ data, net.predict (ss'.map LState.q) x = .ok (pm.eval x) := by
  have hc : net.Clip ss := Net.AllS.imp (fun nd s h => h.clip) ((allS_iff Node.WF net ss).mpr hw)
  obtain ⟨-, -, rfl⟩ := traceMinmax_states hc h
  obtain ⟨h1, h2, h3⟩ := traceStates_spec (o := o) (data := data) hw hrst hcov hlist
  have hlen' := traceStates_length (I := topLayers ts) (o := o) (data := data) (Net.AllS.length hc)
  obtain ⟨x0, hx0⟩ := List.exists_mem_of_ne_nil data hne
  have ht : net.All Node.AllTraced ((net.traceStates (topLayers ts) o ss data).map LState.q) := by
    have hwS := (allS_iff_get.mp ((allS_iff Node.WF net _).mpr h1)).2
    have hbS := (allS_iff_get.mp ((allS_iff Bounded net _).mpr hb)).2
    have hfbw := traceStates_fbw (I := topLayers ts) (o := o) (data := data) hc
    have hr : ∀ {net : Net} {ss : List LState} {env : List (List ℚ)}, net.InRange (ss.map LState.q) env → ∀ (i : ℕ) ni s,
        net[i]? = some ni → ss[i]? = some s → ∃ ins, ni.1.InRange s.q ins := by
      intro net
      induction net with
      | nil => intro ss env _ i ni s hn; simp at hn
      | cons ni' net ih =>
        intro ss env h i ni s hn hs
        cases ss with
        | nil => simp at hs
        | cons s' ss =>
          cases i with
          | zero => simp at hn hs; subst hn; subst hs; exact ⟨_, h.1⟩
          | succ i => exact ih h.2 i ni s (by simpa using hn) (by simpa using hs)
    apply all_of_get hlen'
    intro i ni s hn hs q hq
    obtain ⟨ins, hins⟩ := hr (h2 x0 hx0) i ni s hn hs
    exact Node.traced_of (hwS i ni s hn hs) (h3 i ni s hn hs (by rw [hq]; rfl)) (hbS i ni s hn hs) hins q hq
  obtain ⟨pm, hpm, hev⟩ := C26_in_range net _ aggressive h1 ht
  exact ⟨pm, hpm, fun x hx => hev x (h2 x hx)⟩

/-- the network of Props/Net.lean traced with cover factor 3/2 and batch size 1 -/
def exCovered : List QState := (statesOf (exNet.traceMinmax [.layer 0, .layer 1, .layer 2, .layer 3] [4] (fun _ _ => .ok 0)
  { bsz := 1, cover := 3 / 2 } (exNetStates.map fun s => ⟨s, false⟩) exData)).map LState.q

-- ranges wider than those of `exTraced`, all layers with quantizers listed, and the proxy agrees with the model
example : (exCovered.map fun s => ((s.mn 0).untopD 99, (s.mn 1).untopD 99, (s.mx 0).unbotD (-99), (s.mx 1).unbotD (-99))) =
    [(-5 / 2, 0, 2, 3 / 2), (-5 / 2, -9 / 4, 3 / 2, 6), (-4, -2, 7 / 2, 7 / 4), (1 / 2, 5 / 4, 7 / 2, 5 / 4)] := by decide +kernel

example : (match exNet.toProxy .SAT exCovered with | .ok pm => exData.map pm.eval | .error _ => []) =
    [[[1, 1 / 3], [1, 1 / 4], [1, 0], [0, 1], [1, 5 / 4]],
     [[-2, 5 / 4], [-2, 5 / 4], [0, 19 / 4], [19 / 4, 0], [3, 5 / 4]]] := by decide +kernel

/-! ### C52 -/

theorem concatPreds_single (out : ℕ) (r : List (List (List (List ℚ)))) (h : r ≠ []) :
    concatPreds [out] r = .ok (.rows (r.flatten.map fun env => env.getD out [])) := by
  unfold concatPreds
  cases r with
  | nil => exact absurd rfl h
  | cons a l => simp [List.flatMap, List.map_flatten]

theorem chunks_eq_nil {α : Type} (b : ℕ) (hb : 0 < b) (l : List α) : chunks b l = [] ↔ l = [] := by
  constructor
  · intro h
    have := chunks_flatten b hb l
    rw [h] at this
    exact this.symm
  · rintro rfl
    unfold chunks
    have : ([] : List α).length + b - 1 = b - 1 := by simp
    rw [this, Nat.div_eq_of_lt (by omega)]
    rfl

/-- **C52**: with `return_predictions=True`, `trace_minmax` on a model with one output returns one row for every sample, in
the order of the dataset, which is the model's output on that sample alone. -/
theorem C52_predictions (net : Net) (ts : List LTree) (out : ℕ) (bopsOf : ℕ → List LState → Except String ℚ)
    (o : TraceOpts) (ss ss' : List LState) (data : List (List (List ℚ))) (r : TraceRes) (hc : net.Clip ss)
    (hp : o.returnPredictions = true) (hb : o.noBops = false)
    (h : net.traceMinmax ts [out] bopsOf o ss data = .ok (ss', r)) :
    ∃ b p, r = .withPreds b (.rows p) ∧ p.length = data.length ∧
      ∀ (j : ℕ) x, data[j]? = some x → ∃ ss'' tensors, net.run ss [x] = .ok (ss'', [tensors]) ∧
        p[j]? = some (tensors.getD out []) := by
  obtain ⟨hbs, hcov, -⟩ := traceMinmax_states hc h
  rw [net.traceMinmax_eq ts [out] bopsOf o ss data hc hbs hcov] at h
  simp only [hb, hp, Bool.false_eq_true, if_false, if_true, bind, Except.bind] at h
  cases hs : sumBops bopsOf (net.traceStates (topLayers ts) o ss data) (net.hLayers (topLayers ts)) with
  | error e => rw [hs] at h; cases h
  | ok b =>
    rw [hs] at h
    simp only at h
    by_cases hne : ((chunks o.bsz data).map fun b => b.map (net.evalEnv (ss.map fun s => s.q.fbw))) = []
    · rw [hne] at h
      cases h
    · rw [concatPreds_single out _ hne] at h
      cases h
      have hfl : ((chunks o.bsz data).map fun b => b.map (net.evalEnv (ss.map fun s => s.q.fbw))).flatten =
          data.map (net.evalEnv (ss.map fun s => s.q.fbw)) := by
        rw [← List.map_flatten, chunks_flatten _ hbs]
      rw [hfl]
      refine ⟨b, _, rfl, by simp, fun j x hx => ⟨_, _, Net.run_eq net ss [x] hc, ?_⟩⟩
      simp [hx]

/-- **C52**: the batch size changes nothing, neither the predictions nor the recorded ranges. -/
theorem C52_batch_size (net : Net) (ts : List LTree) (out : ℕ) (bopsOf : ℕ → List LState → Except String ℚ)
    (o : TraceOpts) (bsz bsz' : ℕ) (ss : List LState) (data : List (List (List ℚ))) (hc : net.Clip ss)
    (h1 : 0 < bsz) (h2 : 0 < bsz') :
    net.traceMinmax ts [out] bopsOf { o with bsz := bsz } ss data =
      net.traceMinmax ts [out] bopsOf { o with bsz := bsz' } ss data := by
  by_cases hcov : 0 < o.cover
  · rw [net.traceMinmax_eq ts [out] bopsOf { o with bsz := bsz } ss data hc h1 hcov,
      net.traceMinmax_eq ts [out] bopsOf { o with bsz := bsz' } ss data hc h2 hcov]
    have hcp : concatPreds [out] ((chunks bsz data).map fun b => b.map (net.evalEnv (ss.map fun s => s.q.fbw))) =
        concatPreds [out] ((chunks bsz' data).map fun b => b.map (net.evalEnv (ss.map fun s => s.q.fbw))) := by
      by_cases hd : data = []
      · rw [(chunks_eq_nil bsz h1 data).mpr hd, (chunks_eq_nil bsz' h2 data).mpr hd]
      · have hne : ∀ b, 0 < b → ((chunks b data).map fun b => b.map (net.evalEnv (ss.map fun s => s.q.fbw))) ≠ [] := by
          intro b hb h
          rw [List.map_eq_nil_iff] at h
          exact hd ((chunks_eq_nil b hb data).mp h)
        rw [concatPreds_single out _ (hne bsz h1), concatPreds_single out _ (hne bsz' h2), ← List.map_flatten,
          ← List.map_flatten, chunks_flatten _ h1, chunks_flatten _ h2]
    simp only [hcp]
    rfl
  · have hs0 : net.Clip (if o.rst then net.forLayers (topLayers ts) (fun _ => startRecording) ss else ss) := by
      split_ifs
      · exact clip_start hc _
      · exact hc
    have herr : ∀ b, 0 < b → net.traceMinmax ts [out] bopsOf { o with bsz := b } ss data = .error "AssertionError" := by
      intro b hb
      unfold Net.traceMinmax
      simp only [bind, Except.bind, if_neg hb.ne', pure, Except.pure]
      rw [Net.runBatches_eq net _ _ hs0]
      simp only
      rw [if_pos ⟨fun e => hcov (by rw [e]; norm_num), hcov⟩]
    rw [herr bsz h1, herr bsz' h2]

/-- **C52**: predictions of an empty dataset are an error, not an empty array. -/
theorem C52_empty (net : Net) (ts : List LTree) (out : ℕ) (bopsOf : ℕ → List LState → Except String ℚ)
    (o : TraceOpts) (ss : List LState) (hc : net.Clip ss) (hp : o.returnPredictions = true) (hb : o.noBops = false) :
    ∃ e, net.traceMinmax ts [out] bopsOf o ss [] = .error e := by
  cases h : net.traceMinmax ts [out] bopsOf o ss [] with
  | error e => exact ⟨e, rfl⟩
  | ok x =>
    obtain ⟨ss', r⟩ := x
    exfalso
    obtain ⟨hbs, hcov, -⟩ := traceMinmax_states hc h
    rw [net.traceMinmax_eq ts [out] bopsOf o ss [] hc hbs hcov] at h
    simp only [hb, hp, Bool.false_eq_true, if_false, if_true, bind, Except.bind] at h
    cases hs : sumBops bopsOf (net.traceStates (topLayers ts) o ss []) (net.hLayers (topLayers ts)) with
    | error e => rw [hs] at h; cases h
    | ok b =>
      rw [hs, (chunks_eq_nil o.bsz hbs []).mpr rfl] at h
      cases h

def predsOf (t : Except String (List LState × TraceRes)) : Option Preds := match t with
  | .ok (_, .withPreds _ p) => some p
  | _ => none

example : predsOf (exOne.traceMinmax [.layer 0] [1] (fun _ _ => .ok 0) { bsz := 2, returnPredictions := true } [exQzState]
    [[[1]], [[-3]], [[1 / 2]]]) = some (.rows [[1], [-3], [1 / 2]]) := by decide +kernel

/-! ### C73 -/

/-- **C73** is false: for a model with two outputs the predictions of the first output in all batches are mixed with those
of the second output, batch by batch (numpy stacks the outputs of a batch and concatenates along that axis), so the
result depends on the batch size. -/
theorem C73_outputs_mixed :
    let net : Net := [(.quantize exQz, [0]), (.passive (fun ins => (ins.headD []).map (· * 10)), [1])]
    let t := fun bsz => predsOf (net.traceMinmax [.layer 0, .layer 1] [1, 2] (fun _ _ => .ok 0)
      { bsz := bsz, returnPredictions := true } [exQzState, exQzState] [[[1]], [[-3]]])
    t 1 = some (.stacked [[[1]], [[10]], [[-3]], [[-30]]]) ∧ t 2 = some (.stacked [[[1], [-3]], [[10], [-30]]]) := by
  decide +kernel

/-- C73, the part that holds: if the dataset fits in one batch, the result lists the outputs, each with one row for every
sample in order. Missing: more than one batch (`C73_outputs_mixed`). -/
theorem C73_one_batch_partial (net : Net) (ts : List LTree) (o1 o2 : ℕ) (os : List ℕ) (bopsOf : ℕ → List LState → Except String ℚ)
    (o : TraceOpts) (ss ss' : List LState) (data : List (List (List ℚ))) (r : TraceRes) (hc : net.Clip ss)
    (hp : o.returnPredictions = true) (hb : o.noBops = false) (hd : data.length ≤ o.bsz)
    (h : net.traceMinmax ts (o1 :: o2 :: os) bopsOf o ss data = .ok (ss', r)) :
    ∃ b p, r = .withPreds b (.stacked p) ∧ p.length = (o1 :: o2 :: os).length ∧
      ∀ (k : ℕ) out, (o1 :: o2 :: os)[k]? = some out → ∃ rows, p[k]? = some rows ∧ rows.length = data.length ∧
        ∀ (j : ℕ) x, data[j]? = some x → ∃ ss'' tensors, net.run ss [x] = .ok (ss'', [tensors]) ∧
          rows[j]? = some (tensors.getD out []) := by
  obtain ⟨hbs, hcov, -⟩ := traceMinmax_states hc h
  rw [net.traceMinmax_eq ts _ bopsOf o ss data hc hbs hcov] at h
  simp only [hb, hp, Bool.false_eq_true, if_false, if_true, bind, Except.bind] at h
  cases hs : sumBops bopsOf (net.traceStates (topLayers ts) o ss data) (net.hLayers (topLayers ts)) with
  | error e => rw [hs] at h; cases h
  | ok b =>
    rw [hs] at h
    simp only at h
    by_cases hne : data = []
    · rw [(chunks_eq_nil o.bsz hbs data).mpr hne] at h
      cases h
    · have hch : chunks o.bsz data = [data] := by
        have hl : 0 < data.length := List.length_pos_of_ne_nil hne
        unfold chunks
        have : (data.length + o.bsz - 1) / o.bsz = 1 := by
          apply Nat.div_eq_of_lt_le <;> omega
        rw [this]
        simp [List.range_succ, List.take_of_length_le hd]
      rw [hch] at h
      unfold concatPreds at h
      simp only [List.map_cons, List.map_nil, List.isEmpty_cons, Bool.false_eq_true, if_false, List.flatten_cons,
        List.flatten_nil, List.append_nil] at h
      split_ifs at h
      cases h
      refine ⟨b, _, rfl, by simp, fun k out hk => ?_⟩
      refine ⟨data.map fun x => (net.evalEnv (ss.map fun s => s.q.fbw) x).getD out [], ?_, by simp, fun j x hx =>
        ⟨_, _, Net.run_eq net ss [x] hc, by simp [hx]⟩⟩
      have : ∀ l : List ℕ, l[k]? = some out → (l.map fun o => (data.map (net.evalEnv (ss.map fun s => s.q.fbw))).map
          fun env => env.getD o [])[k]? = some (data.map fun x => (net.evalEnv (ss.map fun s => s.q.fbw) x).getD out []) := by
        intro l hl
        rw [List.getElem?_map, hl, Option.map_some, List.map_map]
        rfl
      exact this _ hk

theorem flatten_get {β : Type} (n : ℕ) : ∀ (L : List (List β)), (∀ l ∈ L, l.length = n) → ∀ (i k : ℕ) l, k < n → L[i]? = some l →
    L.flatten[i * n + k]? = l[k]?
  | [], _, i, k, l, _, h => by simp at h
  | a :: L, hL, 0, k, l, hk, h => by
    simp only [List.getElem?_cons_zero, Option.some.injEq] at h
    subst h
    rw [List.flatten_cons, Nat.zero_mul, Nat.zero_add, List.getElem?_append_left (by rw [hL a (by simp)]; exact hk)]
  | a :: L, hL, i + 1, k, l, hk, h => by
    rw [List.getElem?_cons_succ] at h
    rw [List.flatten_cons, List.getElem?_append_right (by rw [hL a (by simp)]; nlinarith), hL a (by simp),
      show (i + 1) * n + k - n = i * n + k by rw [Nat.succ_mul]; omega]
    exact flatten_get n L (fun l hl => hL l (by simp [hl])) i k l hk h

/-- **C73**, exactly what is returned for a model with several outputs: one entry for every batch and output, batch by batch. So the
first dimension counts the outputs if and only if the dataset fits in one batch. -/
theorem C73_result_partial (net : Net) (ts : List LTree) (o1 o2 : ℕ) (os : List ℕ) (bopsOf : ℕ → List LState → Except String ℚ)
    (o : TraceOpts) (ss ss' : List LState) (data : List (List (List ℚ))) (r : TraceRes) (hc : net.Clip ss)
    (hp : o.returnPredictions = true) (hb : o.noBops = false)
    (h : net.traceMinmax ts (o1 :: o2 :: os) bopsOf o ss data = .ok (ss', r)) :
    ∃ b p, ∃ pred : List (List ℚ) → List (List ℚ), r = .withPreds b (.stacked p) ∧
      (∀ x, ∃ ss'', net.run ss [x] = .ok (ss'', [pred x])) ∧
      p.length = (data.length + o.bsz - 1) / o.bsz * (o1 :: o2 :: os).length ∧
      (p.length = (o1 :: o2 :: os).length ↔ data.length ≤ o.bsz) ∧
      ∀ (k : ℕ) out, (o1 :: o2 :: os)[k]? = some out → ∀ i, i * o.bsz < data.length →
        p[i * (o1 :: o2 :: os).length + k]? = some (((data.drop (i * o.bsz)).take o.bsz).map fun x => (pred x).getD out []) := by
  obtain ⟨hbs, hcov, -⟩ := traceMinmax_states hc h
  rw [net.traceMinmax_eq ts _ bopsOf o ss data hc hbs hcov] at h
  simp only [hb, hp, Bool.false_eq_true, if_false, if_true, bind, Except.bind] at h
  cases hs : sumBops bopsOf (net.traceStates (topLayers ts) o ss data) (net.hLayers (topLayers ts)) with
  | error e => rw [hs] at h; cases h
  | ok b =>
    rw [hs] at h
    simp only at h
    by_cases hne : data = []
    · rw [(chunks_eq_nil o.bsz hbs data).mpr hne] at h
      cases h
    · have hl : 0 < data.length := List.length_pos_of_ne_nil hne
      generalize houts : o1 :: o2 :: os = outs at h ⊢
      have hol : 0 < outs.length := by rw [← houts]; simp
      unfold concatPreds at h
      rw [if_neg (by simp [chunks_eq_nil o.bsz hbs data, hne])] at h
      rw [← houts] at h
      simp only at h
      rw [houts] at h
      split_ifs at h
      cases h
      refine ⟨b, _, net.evalEnv (ss.map fun s => s.q.fbw), rfl, fun x => ⟨_, Net.run_eq net ss [x] hc⟩, ?_, ?_, fun k out hk i hi => ?_⟩
      · simp [chunks, List.length_flatten, Function.comp_def]
      · have e : (((List.map (List.map (net.evalEnv (ss.map fun s => s.q.fbw))) (chunks o.bsz data)).map
            fun b => outs.map fun o => b.map fun env => env.getD o []).flatten).length = (data.length + o.bsz - 1) / o.bsz * outs.length := by
          simp [chunks, List.length_flatten, Function.comp_def]
        rw [e]
        constructor
        · intro h
          have h1 : (data.length + o.bsz - 1) / o.bsz = 1 := Nat.eq_of_mul_eq_mul_right hol (by rw [h, Nat.one_mul])
          have := (Nat.div_eq_iff hbs).mp h1
          omega
        · intro h
          have : (data.length + o.bsz - 1) / o.bsz = 1 := by apply Nat.div_eq_of_lt_le <;> omega
          rw [this, Nat.one_mul]
      · have hkl : k < outs.length := (List.getElem?_eq_some_iff.mp hk).1
        have hi' : i < (data.length + o.bsz - 1) / o.bsz := by
          rw [Nat.lt_div_iff_mul_lt hbs]
          omega
        rw [flatten_get outs.length _ (by intro l hl; simp only [List.mem_map] at hl; obtain ⟨_, _, rfl⟩ := hl; simp) i k
          (outs.map fun o' => (((data.drop (i * o.bsz)).take o.bsz).map (net.evalEnv (ss.map fun s => s.q.fbw))).map fun env => env.getD o' []) hkl
          (by simp [chunks, hi'])]
        rw [List.getElem?_map, hk, Option.map_some, List.map_map]
        rfl

/-! ### `FreeBOPs` -/

mutual
/-- the layers of one entry of `model.layers` -/
def leaves1 : LTree → List ℕ
  | .layer i => [i]
  | .model ts => leaves ts
/-- all layers of a model, those of nested models included -/
def leaves : List LTree → List ℕ
  | [] => []
  | t :: ts => leaves1 t ++ leaves ts
end

mutual
theorem freeBops1_eq (b : ℕ → Option ℚ) : ∀ t, freeBops1 b t = ((leaves1 t).map fun i => (b i).getD 0).sum
  | .layer i => by simp [freeBops1, leaves1]
  | .model ts => by simp only [freeBops1, leaves1]; exact freeBops_eq b ts
theorem freeBops_eq (b : ℕ → Option ℚ) : ∀ ts, freeBops b ts = ((leaves ts).map fun i => (b i).getD 0).sum
  | [] => rfl
  | t :: ts => by
    simp only [freeBops, leaves, List.map_append, List.sum_append]
    rw [freeBops1_eq b t, freeBops_eq b ts]
end

mutual
theorem mem_leaves1 (i : ℕ) : ∀ t, i ∈ leaves1 t ↔ InModel i [t]
  | .layer j => by
    simp only [leaves1, List.mem_singleton]
    constructor
    · rintro rfl; exact .here (by simp)
    · rintro (h | ⟨h, _⟩)
      · simpa using h
      · simp at h
  | .model ts => by
    simp only [leaves1]
    rw [mem_leaves i ts]
    constructor
    · intro h; exact .nested (ts' := ts) (by simp) h
    · rintro (h | ⟨h, h'⟩)
      · simp at h
      · simp at h; subst h; exact h'
theorem mem_leaves (i : ℕ) : ∀ ts, i ∈ leaves ts ↔ InModel i ts
  | [] => by
    have hin : ¬ InModel i [] := by rintro (h | ⟨h, _⟩) <;> simp at h
    simp [leaves, hin]
  | t :: ts => by
    simp only [leaves, List.mem_append]
    rw [mem_leaves1 i t, mem_leaves i ts]
    constructor
    · rintro ((h | ⟨h, h'⟩) | (h | ⟨h, h'⟩))
      · exact .here (by simp at h; simp [h])
      · exact .nested (by simp at h; simp [h]) h'
      · exact .here (List.mem_cons_of_mem _ h)
      · exact .nested (List.mem_cons_of_mem _ h) h'
    · rintro (h | ⟨h, h'⟩)
      · rcases List.mem_cons.mp h with h | h
        · exact .inl (.here (by simp [h]))
        · exact .inr (.here h)
      · rcases List.mem_cons.mp h with h | h
        · exact .inl (.nested (by simp [h]) h')
        · exact .inr (.nested h h')
end

end HGQ
