import Verif.Model.Compiled
import Verif.Props.Trace

/-!
C93: inference leaves the recorded ranges alone, whatever was done with the model before, also through Keras' compiled
`predict` and `evaluate`.
-/

namespace HGQ
open Spec

/-! ### specification -/

/-- the recorded ranges of all layers -/
def MState.ranges (m : MState) : List ((ℕ → WithTop ℚ) × (ℕ → WithBot ℚ)) := m.layers.map fun s => (s.q.mn, s.q.mx)

/-- a model just built: no layer records, nothing compiled -/
structure MState.Fresh (net : Net) (m : MState) : Prop where
  len : m.layers.length = net.length
  off : ∀ s ∈ m.layers, s.recording = false
  empty : m.cache = []

/-- inference: a direct call, or a compiled one -/
def MOp.Inference : MOp → Prop
  | .call _ => True
  | .predict _ _ => True
  | _ => False

/-- uses that complete: no interrupted `trace_minmax`, none with `no_bops_computation` -/
def MOp.Completes : MOp → Prop
  | .trace o _ => o.noBops = false
  | .interrupted _ _ _ => False
  | _ => True

/-! ### proof -/

/-- no layer records, no compiled function does -/
structure MState.Quiet (net : Net) (m : MState) : Prop where
  len : m.layers.length = net.length
  off : ∀ s ∈ m.layers, s.recording = false
  cached : ∀ c ∈ m.cache, c.2.length = net.length ∧ ∀ r ∈ c.2, r = false

theorem MState.Fresh.quiet {net : Net} {m : MState} (h : m.Fresh net) : m.Quiet net :=
  ⟨h.len, h.off, by simp [h.empty]⟩

theorem run_quiet {net : Net} {ss ss' : List LState} {envs o : List (List (List ℚ))} (h : net.run ss envs = .ok (ss', o))
    (hl : ss.length = net.length) (hoff : ∀ s ∈ ss, s.recording = false) :
    ss'.length = net.length ∧ (∀ s ∈ ss', s.recording = false) ∧
      ss'.map (fun s => (s.q.mn, s.q.mx)) = ss.map fun s => (s.q.mn, s.q.mx) := by
  obtain ⟨h1, h2⟩ := run_get h
  refine ⟨h1, ?_, ?_⟩
  · intro s' hs'
    obtain ⟨i, hi, rfl⟩ := List.getElem_of_mem hs'
    obtain ⟨s, hs, hr, -⟩ := h2 i net[i] ss'[i] (List.getElem?_eq_getElem (by omega)) (List.getElem?_eq_getElem hi)
    rw [hr]
    exact hoff s (List.mem_of_getElem? hs)
  · apply List.ext_getElem (by simp [h1, hl])
    intro i hi hi'
    simp only [List.length_map] at hi hi'
    obtain ⟨s, hs, hr, hk⟩ := h2 i net[i] ss'[i] (List.getElem?_eq_getElem (by omega)) (List.getElem?_eq_getElem hi)
    have := hk fun _ => hoff s (List.mem_of_getElem? hs)
    rw [List.getElem?_eq_getElem hi'] at hs
    cases hs
    simp [this.1, this.2]

theorem withFlags_off {ss : List LState} {fl : List Bool} (hf : ∀ r ∈ fl, r = false) :
    ∀ s ∈ withFlags ss fl, s.recording = false := by
  intro s hs
  obtain ⟨i, hi, rfl⟩ := List.getElem_of_mem hs
  simp only [withFlags, List.getElem_zipWith]
  exact hf _ (List.getElem_mem _)

theorem withFlags_ranges {ss : List LState} {fl : List Bool} (hl : fl.length = ss.length) :
    (withFlags ss fl).map (fun s => (s.q.mn, s.q.mx)) = ss.map fun s => (s.q.mn, s.q.mx) := by
  apply List.ext_getElem
  · simp [withFlags, hl]
  · intro i h1 h2
    simp [withFlags]

/-- inference on a quiet model keeps the ranges -/
theorem MState.Quiet.inference {net : Net} {ts : List LTree} {outs : List ℕ} {bopsOf : ℕ → List LState → Except String ℚ}
    {m m' : MState} (hq : m.Quiet net) {op : MOp} (hop : op.Inference) (h : net.stepM ts outs bopsOf m op = .ok m') :
    m'.Quiet net ∧ m'.ranges = m.ranges := by
  cases op with
  | call batch =>
    simp only [Net.stepM, bind, Except.bind, pure, Except.pure] at h
    cases hr : net.run m.layers batch with
    | error e => rw [hr] at h; cases h
    | ok x =>
      obtain ⟨ss, o⟩ := x
      rw [hr] at h
      cases h
      obtain ⟨h1, h2, h3⟩ := run_quiet hr hq.len hq.off
      exact ⟨⟨h1, h2, hq.cached⟩, h3⟩
  | predict sig batch =>
    simp only [Net.stepM, bind, Except.bind, pure, Except.pure] at h
    have hoff' : ∀ r ∈ m.layers.map (·.recording), r = false := by
      intro r hr
      obtain ⟨s, hs, rfl⟩ := List.mem_map.mp hr
      exact hq.off s hs
    have hfl : ((m.cache.lookup sig).getD (m.layers.map (·.recording))).length = net.length ∧
        ∀ r ∈ (m.cache.lookup sig).getD (m.layers.map (·.recording)), r = false := by
      cases hc : m.cache.lookup sig with
      | none => exact ⟨by simp [hq.len], hoff'⟩
      | some fl =>
        obtain ⟨l1, l2, he, -⟩ := List.lookup_eq_some_iff.mp hc
        exact hq.cached (sig, fl) (by rw [he]; simp)
    generalize (m.cache.lookup sig).getD (m.layers.map (·.recording)) = fl at h hfl
    cases hr : net.run (withFlags m.layers fl) batch with
    | error e => rw [hr] at h; cases h
    | ok x =>
      obtain ⟨ss, o⟩ := x
      rw [hr] at h
      cases h
      obtain ⟨h1, h2, h3⟩ := run_quiet hr (by simp [withFlags, hfl.1, hq.len]) (withFlags_off hfl.2)
      refine ⟨⟨by simp [withFlags, h1, hq.len], withFlags_off hoff', ?_⟩, ?_⟩
      · intro c hc
        simp only at hc
        split_ifs at hc
        · exact hq.cached c hc
        · rcases List.mem_cons.mp hc with rfl | hc
          · exact hfl
          · exact hq.cached c hc
      · unfold MState.ranges
        rw [withFlags_ranges (by simp [h1, hq.len]), h3, withFlags_ranges (by rw [hfl.1, hq.len])]
  | _ => exact absurd hop (by simp [MOp.Inference])

/-- after `trace_minmax` no listed layer records, and the others are as before -/
theorem trace_off {net : Net} {ts : List LTree} {outs : List ℕ} {bopsOf : ℕ → List LState → Except String ℚ} {o : TraceOpts}
    {ss ss' : List LState} {data : List (List (List ℚ))} {r : TraceRes} (hlen : ss.length = net.length)
    (hno : o.noBops = false) (h : net.traceMinmax ts outs bopsOf o ss data = .ok (ss', r))
    (hnested : ∀ (i : ℕ) nd ins s, net[i]? = some (nd, ins) → ss[i]? = some s →
      ¬ (i ∈ topLayers ts ∧ nd.site.isSome) → s.recording = false) :
    ss'.length = net.length ∧ ∀ s ∈ ss', s.recording = false := by
  obtain ⟨s1, r1, h1, rfl⟩ := traceMinmax_inv h hno
  have hl0 : (if o.rst then net.forLayers (topLayers ts) (fun _ => startRecording) ss else ss).length = net.length := by
    split_ifs
    · exact forLayersFrom_length _ _ 0 net ss hlen
    · exact hlen
  obtain ⟨hl1, hg1⟩ := runBatches_get net hl0 h1
  have hl2 : (if o.cover ≠ 1 then net.forLayers (topLayers ts) (Node.cover o.cover) s1 else s1).length = net.length := by
    split_ifs
    · exact forLayersFrom_length _ _ 0 net s1 hl1
    · exact hl1
  have hl3 := forLayersFrom_length (topLayers ts) (fun nd s => ⟨nd.adjust s.q, s.recording⟩) 0 net _ hl2
  have hl4 := forLayersFrom_length (topLayers ts) (fun _ s => ⟨s.q, false⟩) 0 net _ hl3
  refine ⟨hl4, fun s hs => ?_⟩
  obtain ⟨i, hi, rfl⟩ := List.getElem_of_mem hs
  have hin : i < net.length := lt_of_lt_of_eq hi hl4
  have hs' := List.getElem?_eq_getElem hi
  generalize (net.forLayers (topLayers ts) (fun _ s => ⟨s.q, false⟩) _)[i] = s' at hs'
  rw [forLayers_get] at hs'
  cases hs3 : (net.forLayers (topLayers ts) (fun nd s => ⟨nd.adjust s.q, s.recording⟩)
          (if o.cover ≠ 1 then net.forLayers (topLayers ts) (Node.cover o.cover) s1 else s1))[i]? with
  | none => rw [hs3, List.getElem?_eq_getElem hin] at hs'; simp at hs'
  | some s3 =>
    rw [hs3, List.getElem?_eq_getElem hin] at hs'
    simp only [Option.some.injEq] at hs'
    by_cases hI : i ∈ topLayers ts ∧ net[i].1.site.isSome
    · rw [if_pos hI] at hs'
      rw [← hs']
    · rw [if_neg hI] at hs'
      subst hs'
      obtain ⟨s2, hs2, e2⟩ := forLayers_recording (f := fun nd s => ⟨nd.adjust s.q, s.recording⟩) (fun nd s => rfl) hs3
      rw [e2]
      have : ∃ s, s1[i]? = some s ∧ s2.recording = s.recording := by
        split_ifs at hs2
        · refine forLayers_recording (fun nd s => ?_) hs2
          unfold Node.cover
          cases nd.site <;> rfl
        · exact ⟨s2, hs2, rfl⟩
      obtain ⟨s, hs, e⟩ := this
      rw [e]
      obtain ⟨s0, hs0, e0⟩ := hg1 i s hs
      rw [e0]
      split_ifs at hs0
      · rw [forLayers_get, List.getElem?_eq_getElem hin, List.getElem?_eq_getElem (by rw [hlen]; exact hin)] at hs0
        simp only [Option.some.injEq] at hs0
        rw [if_neg hI] at hs0
        rw [← hs0]
        exact hnested i net[i].1 net[i].2 _ (List.getElem?_eq_getElem _) (List.getElem?_eq_getElem _) hI
      · exact hnested i net[i].1 net[i].2 s0 (List.getElem?_eq_getElem _) hs0 hI

mutual
theorem resetOne_flags (net : Net) : ∀ (t : LTree) (ss : List LState),
    (net.resetOne t ss).map (·.recording) = ss.map (·.recording)
  | .layer i, ss => by
    unfold Net.resetOne
    cases net[i]? with
    | none => rfl
    | some ni =>
      simp only
      split_ifs
      · apply List.ext_getElem?
        intro j
        simp only [List.getElem?_map, List.getElem?_modify]
        cases ss[j]? with
        | none => rfl
        | some s => simp only [Option.map_some]; split_ifs <;> rfl
      · rfl
  | .model ts, ss => by unfold Net.resetOne; exact resetMinmax_flags net ts ss
theorem resetMinmax_flags (net : Net) : ∀ (ts : List LTree) (ss : List LState),
    (net.resetMinmax ts ss).map (·.recording) = ss.map (·.recording)
  | [], ss => by unfold Net.resetMinmax; rfl
  | t :: ts, ss => by
    unfold Net.resetMinmax
    rw [resetMinmax_flags net ts, resetOne_flags net t]
end

theorem resetMinmax_off {net : Net} {ts : List LTree} {ss : List LState} (hl : ss.length = net.length)
    (h : ∀ s ∈ ss, s.recording = false) :
    (net.resetMinmax ts ss).length = net.length ∧ ∀ s ∈ net.resetMinmax ts ss, s.recording = false := by
  have hf := resetMinmax_flags net ts ss
  refine ⟨by rw [← hl]; simpa using congrArg List.length hf, fun s hs => ?_⟩
  have : s.recording ∈ (net.resetMinmax ts ss).map (·.recording) := List.mem_map.mpr ⟨s, hs, rfl⟩
  rw [hf] at this
  obtain ⟨s', hs', he⟩ := List.mem_map.mp this
  rw [← he]
  exact h s' hs'

/-- completing uses keep a model quiet -/
theorem MState.Quiet.step {net : Net} {ts : List LTree} {outs : List ℕ} {bopsOf : ℕ → List LState → Except String ℚ}
    {m m' : MState} (hq : m.Quiet net) {op : MOp} (hop : op.Completes) (h : net.stepM ts outs bopsOf m op = .ok m') :
    m'.Quiet net := by
  cases op with
  | call batch => exact (hq.inference (op := .call batch) trivial h).1
  | predict sig batch => exact (hq.inference (op := .predict sig batch) trivial h).1
  | compile => cases h; exact ⟨hq.len, hq.off, by simp⟩
  | train qs =>
    cases h
    refine ⟨by simp [hq.len], ?_, hq.cached⟩
    intro s hs
    obtain ⟨i, hi, rfl⟩ := List.getElem_of_mem hs
    simp only [List.getElem_mapIdx]
    exact hq.off _ (List.getElem_mem _)
  | reset =>
    cases h
    obtain ⟨h1, h2⟩ := resetMinmax_off (ts := ts) hq.len hq.off
    exact ⟨h1, h2, hq.cached⟩
  | trace o data =>
    simp only [Net.stepM, bind, Except.bind, pure, Except.pure] at h
    cases hr : net.traceMinmax ts outs bopsOf o m.layers data with
    | error e => rw [hr] at h; cases h
    | ok x =>
      rw [hr] at h
      cases h
      obtain ⟨h1, h2⟩ := trace_off hq.len hop hr fun i nd ins s _ hs _ => hq.off s (List.mem_of_getElem? hs)
      exact ⟨h1, h2, hq.cached⟩
  | interrupted o n data => exact absurd hop (by simp [MOp.Completes])

theorem MState.Quiet.history {net : Net} {ts : List LTree} {outs : List ℕ}
    {bopsOf : ℕ → List LState → Except String ℚ} : ∀ {ops : List MOp} {m m' : MState}, m.Quiet net →
    (∀ op ∈ ops, op.Completes) → net.history ts outs bopsOf m ops = .ok m' → m'.Quiet net
  | [], m, m', hq, _, h => by cases h; exact hq
  | op :: ops, m, m', hq, hc, h => by
    simp only [Net.history, bind, Except.bind] at h
    cases hs : net.stepM ts outs bopsOf m op with
    | error e => rw [hs] at h; cases h
    | ok m1 =>
      rw [hs] at h
      exact MState.Quiet.history (hq.step (hc op (by simp)) hs) (fun o ho => hc o (by simp [ho])) h

/-! ### C93 -/

/-- **C93** (partial). From a model just built, after any history of training, calibration, resets, recompilation, direct
calls and compiled predictions in which every `trace_minmax` ran to its end and computed BOPs: inference on any input, direct
or compiled, with an input signature seen before or not, leaves every recorded range as it is. Missing: interrupted
calibrations and `no_bops_computation=True` (`C93_compiled_goes_on_recording`, `C93_interrupted`). -/
theorem C93_inference_keeps_ranges_partial (net : Net) (ts : List LTree) (outs : List ℕ)
    (bopsOf : ℕ → List LState → Except String ℚ) (m₀ m m' : MState) (ops : List MOp) (op : MOp)
    (hfresh : m₀.Fresh net) (hops : ∀ op ∈ ops, op.Completes) (hm : net.history ts outs bopsOf m₀ ops = .ok m)
    (hop : op.Inference) (hm' : net.stepM ts outs bopsOf m op = .ok m') :
    m'.ranges = m.ranges :=
  ((hfresh.quiet.history hops hm).inference hop hm').2

/-- **C93** (partial, the way back). Whatever happened before, also interrupted calibrations: after a complete
`trace_minmax` and `model.compile` no later inference changes a range, as long as later calibrations complete. `hnested`: only
layers listed by the model were ever switched to recording. -/
theorem C93_recompile_partial (net : Net) (ts : List LTree) (outs : List ℕ)
    (bopsOf : ℕ → List LState → Except String ℚ) (m₀ m₁ m m' : MState) (o : TraceOpts) (data : List (List (List ℚ)))
    (ops : List MOp) (op : MOp) (hlen : m₀.layers.length = net.length) (hno : o.noBops = false)
    (hnested : ∀ (i : ℕ) nd ins s, net[i]? = some (nd, ins) → m₀.layers[i]? = some s →
      ¬ (i ∈ topLayers ts ∧ nd.site.isSome) → s.recording = false)
    (hm₁ : net.history ts outs bopsOf m₀ [.trace o data, .compile] = .ok m₁)
    (hops : ∀ op ∈ ops, op.Completes) (hm : net.history ts outs bopsOf m₁ ops = .ok m)
    (hop : op.Inference) (hm' : net.stepM ts outs bopsOf m op = .ok m') :
    m'.ranges = m.ranges := by
  have hq : m₁.Quiet net := by
    simp only [Net.history, Net.stepM, bind, Except.bind, pure, Except.pure] at hm₁
    cases hr : net.traceMinmax ts outs bopsOf o m₀.layers data with
    | error e => rw [hr] at hm₁; cases hm₁
    | ok x =>
      rw [hr] at hm₁
      cases hm₁
      obtain ⟨h1, h2⟩ := trace_off hlen hno hr hnested
      exact ⟨h1, h2, by simp⟩
  exact ((hq.history hops hm).inference hop hm').2

/-- range of layer `i`, element `e` -/
def MState.rangeAt (i e : ℕ) : Except String MState → Option (WithTop ℚ × WithBot ℚ)
  | .ok m => m.layers[i]?.map fun s => (s.q.mn e, s.q.mx e)
  | .error _ => none

def exRun (ops : List MOp) : Except String MState :=
  exOne.history [.layer 0] [1] (fun _ _ => .ok 0) ⟨[exQzState], []⟩ ops

example : MState.Fresh exOne ⟨[exQzState], []⟩ := ⟨rfl, by simp [exQzState], rfl⟩

/-- a history within C93: calibration, compiled prediction, recalibration, prediction outside the range -/
example : MState.rangeAt 0 0 (exRun [.predict 0 [[[1]]], .trace {} [[[1]]], .predict 0 [[[5]]], .trace {} [[[1]], [[-3]]],
      .predict 0 [[[5]]], .predict 1 [[[7]]], .call [[[9]]]]) = range (-3) 1 := by
  decide +kernel

/-- C93 is false once `no_bops_computation=True` was used: a prediction made then compiles a function that records. A later,
complete calibration switches recording off, and direct calls no longer record; `model.predict` does, until the model is
compiled again. -/
theorem C93_compiled_goes_on_recording :
    let before := [MOp.trace { noBops := true } [[[1]]], .predict 0 [[[1]]], .trace {} [[[1]]]]
    MState.rangeAt 0 0 (exRun before) = range 1 1 ∧
    MState.rangeAt 0 0 (exRun (before ++ [.call [[[5]]]])) = range 1 1 ∧
    MState.rangeAt 0 0 (exRun (before ++ [.predict 0 [[[5]]]])) = range 1 5 ∧
    MState.rangeAt 0 0 (exRun (before ++ [.compile, .predict 0 [[[5]]]])) = range 1 1 := by
  decide +kernel

/-- C93 is false after an interrupted calibration with default options: the layers go on recording. -/
theorem C93_interrupted :
    MState.rangeAt 0 0 (exRun [.interrupted { bsz := 1 } 1 [[[1]], [[2]]]]) = range 1 1 ∧
    MState.rangeAt 0 0 (exRun [.interrupted { bsz := 1 } 1 [[[1]], [[2]]], .call [[[5]]]]) = range 1 5 := by
  decide +kernel

/-- `C93_recompile_partial` at work: an interrupted calibration with predictions before the complete one -/
example : MState.rangeAt 0 0 (exRun [.interrupted { bsz := 1 } 1 [[[1]], [[2]]], .predict 0 [[[3]]], .trace {} [[[1]], [[-3]]],
      .compile, .predict 0 [[[5]]], .call [[[9]]]]) = range (-3) 1 := by
  decide +kernel

/-- the other direction: a function compiled while nothing records does not record when `no_bops_computation=True` has
switched recording on: the same input is recorded by a direct call but not by `model.predict`. -/
theorem C93_compiled_does_not_record :
    let before := [MOp.predict 0 [[[1]]], .trace { noBops := true } [[[1]]]]
    MState.rangeAt 0 0 (exRun (before ++ [.call [[[5]]]])) = range 1 5 ∧
    MState.rangeAt 0 0 (exRun (before ++ [.predict 0 [[[5]]]])) = range 1 1 := by
  decide +kernel

end HGQ
