import Verif.Props.Compiled

/-!
C93 for every history: which inferences record, with interrupted calibrations and `no_bops_computation=True` allowed.
-/

/-! ### specification -/

namespace Spec
open HGQ

/-- what a user has to remember of a model's history to know which inferences record -/
structure Recording where
  /-- direct calls record -/
  on : Bool
  /-- compiled functions, by input signature: does it record? -/
  fns : List (ℕ × Bool)

/-- * a complete `trace_minmax` switches recording off; with `no_bops_computation=True` it stays on, if `rst=True` switched it
on or it was on before;
* an interrupted `trace_minmax` with `rst=True` leaves it on, with `rst=False` leaves it as it was;
* the first `predict` with a signature since `compile` keeps what was in force then;
* `compile` forgets the compiled functions. -/
def Recording.next (σ : Recording) : MOp → Recording
  | .call _ => σ
  | .predict sig _ => if (σ.fns.lookup sig).isSome then σ else ⟨σ.on, (sig, σ.on) :: σ.fns⟩
  | .compile => ⟨σ.on, []⟩
  | .train _ => σ
  | .reset => σ
  | .trace o _ => ⟨if o.noBops then o.rst || σ.on else false, σ.fns⟩
  | .interrupted o _ _ => ⟨o.rst || σ.on, σ.fns⟩

/-- after a history of a model just built -/
def recordingAfter (ops : List MOp) : Recording := ops.foldl Recording.next ⟨false, []⟩

/-- does this use record, as an inference? -/
def Recording.records (σ : Recording) : MOp → Bool
  | .predict sig _ => (σ.fns.lookup sig).getD σ.on
  | _ => σ.on

/-- the values of an inference: direct call or compiled -/
def batchOf : MOp → List (List (List ℚ))
  | .call b => b
  | .predict _ b => b
  | _ => []

end Spec

namespace HGQ
open Spec

/-! ### proof -/

/-- flags of the layers when recording is on for the listed layers, or for none -/
def flagsOf (net : Net) (ts : List LTree) (b : Bool) : List Bool :=
  net.mapIdx fun i ni => b && decide (i ∈ topLayers ts ∧ ni.1.site.isSome = true)

/-- the model is as the specification says -/
structure Tracks (net : Net) (ts : List LTree) (σ : Recording) (m : MState) : Prop where
  flags : m.layers.map (·.recording) = flagsOf net ts σ.on
  cache : m.cache = σ.fns.map fun c => (c.1, flagsOf net ts c.2)

theorem flagsOf_length (net : Net) (ts : List LTree) (b : Bool) : (flagsOf net ts b).length = net.length := by
  simp [flagsOf]

theorem Tracks.len {net : Net} {ts : List LTree} {σ : Recording} {m : MState} (h : Tracks net ts σ m) :
    m.layers.length = net.length := by
  have := congrArg List.length h.flags
  simpa [flagsOf_length] using this

theorem flagsOf_false (net : Net) (ts : List LTree) : ∀ r ∈ flagsOf net ts false, r = false := by
  intro r hr
  obtain ⟨i, hi, rfl⟩ := List.getElem_of_mem hr
  simp [flagsOf]

theorem Tracks.fresh {net : Net} {ts : List LTree} {m : MState} (h : m.Fresh net) : Tracks net ts ⟨false, []⟩ m := by
  refine ⟨?_, by simp [h.empty]⟩
  apply List.ext_getElem
  · simp [flagsOf_length, h.len]
  · intro i h1 h2
    rw [flagsOf_false net ts _ (List.getElem_mem h2), List.getElem_map]
    exact h.off _ (List.getElem_mem _)

theorem run_flags {net : Net} {ss ss' : List LState} {envs o : List (List (List ℚ))} (h : net.run ss envs = .ok (ss', o))
    (hl : ss.length = net.length) : ss'.map (·.recording) = ss.map (·.recording) := by
  obtain ⟨h1, h2⟩ := run_get h
  apply List.ext_getElem (by simp [h1, hl])
  intro i hi hi'
  simp only [List.length_map] at hi hi'
  obtain ⟨s, hs, hr, -⟩ := h2 i net[i] ss'[i] (List.getElem?_eq_getElem (by omega)) (List.getElem?_eq_getElem hi)
  rw [List.getElem?_eq_getElem hi'] at hs
  cases hs
  simp [hr]

theorem runBatches_flags {net : Net} {ss ss' : List LState} {bs : List (List (List (List ℚ)))}
    {o : List (List (List (List ℚ)))} (h : net.runBatches ss bs = .ok (ss', o)) (hl : ss.length = net.length) :
    ss'.map (·.recording) = ss.map (·.recording) := by
  obtain ⟨h1, h2⟩ := runBatches_get net hl h
  apply List.ext_getElem (by simp [h1, hl])
  intro i hi hi'
  simp only [List.length_map] at hi hi'
  obtain ⟨s, hs, hr⟩ := h2 i ss'[i] (List.getElem?_eq_getElem hi)
  rw [List.getElem?_eq_getElem hi'] at hs
  cases hs
  simp [hr]

theorem forLayers_flags {net : Net} {I : List ℕ} {f : Node → LState → LState} {ss : List LState}
    (hl : ss.length = net.length) (hf : ∀ nd s, (f nd s).recording = s.recording) :
    (net.forLayers I f ss).map (·.recording) = ss.map (·.recording) := by
  have h1 : (net.forLayers I f ss).length = net.length := forLayersFrom_length I f 0 net ss hl
  apply List.ext_getElem (by simp [h1, hl])
  intro i hi hi'
  simp only [List.length_map] at hi hi'
  obtain ⟨s, hs, hr⟩ := forLayers_recording hf (List.getElem?_eq_getElem hi)
  rw [List.getElem?_eq_getElem hi'] at hs
  cases hs
  simp [hr]

/-- setting the flag of all listed layers -/
theorem forLayers_set {net : Net} {ts : List LTree} {f : Node → LState → LState} {ss : List LState} {b c : Bool}
    (hfl : ss.map (·.recording) = flagsOf net ts b) (hf : ∀ nd s, (f nd s).recording = c) :
    (net.forLayers (topLayers ts) f ss).map (·.recording) = flagsOf net ts c := by
  have hl : ss.length = net.length := by simpa [flagsOf_length] using congrArg List.length hfl
  have h1 : (net.forLayers (topLayers ts) f ss).length = net.length := forLayersFrom_length _ f 0 net ss hl
  apply List.ext_getElem (by simp [h1, flagsOf_length])
  intro i hi hi'
  simp only [List.length_map] at hi
  rw [flagsOf_length] at hi'
  have hg := forLayers_get (topLayers ts) f net ss i
  rw [List.getElem?_eq_getElem hi, List.getElem?_eq_getElem hi', List.getElem?_eq_getElem (by omega)] at hg
  simp only [Option.some.injEq] at hg
  rw [List.getElem_map, hg]
  have hb : ss[i].recording = (flagsOf net ts b)[i]'(by rw [flagsOf_length]; exact hi') := by
    have := List.getElem_of_eq hfl (i := i) (by simp; omega)
    simpa using this
  simp only [flagsOf, List.getElem_mapIdx] at hb ⊢
  by_cases hI : i ∈ topLayers ts ∧ net[i].1.site.isSome = true
  · rw [if_pos hI, hf]; simp [hI]
  · rw [if_neg hI, hb]; simp [hI]

theorem withFlags_flags {ss : List LState} {fl : List Bool} (hl : fl.length = ss.length) :
    (withFlags ss fl).map (·.recording) = fl := by
  apply List.ext_getElem
  · simp [withFlags, hl]
  · intro i h1 h2
    simp [withFlags]

theorem start_flags {net : Net} {ts : List LTree} {ss : List LState} {b rst : Bool}
    (hfl : ss.map (·.recording) = flagsOf net ts b) :
    (if rst then net.forLayers (topLayers ts) (fun _ => startRecording) ss else ss).map (·.recording) =
      flagsOf net ts (rst || b) := by
  cases rst with
  | true =>
    simp only [if_true, Bool.true_or]
    exact forLayers_set hfl fun _ _ => rfl
  | false => simpa using hfl

theorem trace_flags {net : Net} {ts : List LTree} {outs : List ℕ} {bopsOf : ℕ → List LState → Except String ℚ} {o : TraceOpts}
    {ss ss' : List LState} {data : List (List (List ℚ))} {r : TraceRes} {b : Bool}
    (hfl : ss.map (·.recording) = flagsOf net ts b) (h : net.traceMinmax ts outs bopsOf o ss data = .ok (ss', r)) :
    ss'.map (·.recording) = flagsOf net ts (if o.noBops then o.rst || b else false) := by
  have len : ∀ {l : List LState} {c}, l.map (·.recording) = flagsOf net ts c → l.length = net.length := by
    intro l c hl
    simpa [flagsOf_length] using congrArg List.length hl
  have f0 := start_flags (rst := o.rst) hfl
  unfold Net.traceMinmax at h
  simp only [bind, Except.bind, pure, Except.pure] at h
  by_cases hb : o.bsz = 0
  · rw [if_pos hb] at h; cases h
  rw [if_neg hb] at h
  cases hr : net.runBatches (if o.rst then net.forLayers (topLayers ts) (fun _ => startRecording) ss else ss)
      (chunks o.bsz data) with
  | error e => rw [hr] at h; cases h
  | ok x =>
    obtain ⟨s1, r1⟩ := x
    rw [hr] at h
    simp only at h
    have f1 : s1.map (·.recording) = flagsOf net ts (o.rst || b) := by rw [runBatches_flags hr (len f0), f0]
    by_cases hc : o.cover ≠ 1 ∧ ¬ o.cover > 0
    · rw [if_pos hc] at h; cases h
    rw [if_neg hc] at h
    have f2 : (if o.cover ≠ 1 then net.forLayers (topLayers ts) (Node.cover o.cover) s1 else s1).map (·.recording) =
        flagsOf net ts (o.rst || b) := by
      split_ifs
      · rw [forLayers_flags (len f1) fun nd s => by unfold Node.cover; cases nd.site <;> rfl, f1]
      · exact f1
    have f3 := f2
    rw [← forLayers_flags (I := topLayers ts) (f := fun nd s => ⟨nd.adjust s.q, s.recording⟩) (len f2) fun nd s => rfl] at f3
    generalize net.forLayers (topLayers ts) (fun nd s => ⟨nd.adjust s.q, s.recording⟩)
      (if o.cover ≠ 1 then net.forLayers (topLayers ts) (Node.cover o.cover) s1 else s1) = s3 at h f3
    have f4 : (net.forLayers (topLayers ts) (fun _ s => ⟨s.q, false⟩) s3).map (·.recording) = flagsOf net ts false :=
      forLayers_set f3 fun _ _ => rfl
    cases hno : o.noBops with
    | true =>
      rw [hno] at h
      cases h
      simpa using f3
    | false =>
      rw [hno] at h
      simp only [Bool.false_eq_true, if_false] at h ⊢
      split at h
      · cases h
      · split_ifs at h
        · split at h
          · cases h
          · cases h; exact f4
        · cases h; exact f4

theorem lookup_map {β γ : Type} (f : β → γ) (k : ℕ) : ∀ (l : List (ℕ × β)),
    (l.map fun c => (c.1, f c.2)).lookup k = (l.lookup k).map f
  | [] => rfl
  | (a, b) :: l => by
    simp only [List.map_cons, List.lookup_cons]
    cases k == a
    · exact lookup_map f k l
    · rfl

theorem Tracks.used {net : Net} {ts : List LTree} {σ : Recording} {m : MState} (h : Tracks net ts σ m) (sig : ℕ) :
    (m.cache.lookup sig).getD (m.layers.map (·.recording)) = flagsOf net ts ((σ.fns.lookup sig).getD σ.on) := by
  rw [h.cache, lookup_map, h.flags]
  cases σ.fns.lookup sig <;> rfl

theorem Tracks.step {net : Net} {ts : List LTree} {outs : List ℕ} {bopsOf : ℕ → List LState → Except String ℚ}
    {σ : Recording} {m m' : MState} (hq : Tracks net ts σ m) {op : MOp} (h : net.stepM ts outs bopsOf m op = .ok m') :
    Tracks net ts (σ.next op) m' := by
  cases op with
  | call batch =>
    simp only [Net.stepM, bind, Except.bind, pure, Except.pure] at h
    cases hr : net.run m.layers batch with
    | error e => rw [hr] at h; cases h
    | ok x =>
      rw [hr] at h
      cases h
      exact ⟨by rw [run_flags hr hq.len, hq.flags]; rfl, hq.cache⟩
  | predict sig batch =>
    simp only [Net.stepM, bind, Except.bind, pure, Except.pure] at h
    rw [hq.used sig] at h
    cases hr : net.run (withFlags m.layers (flagsOf net ts ((σ.fns.lookup sig).getD σ.on))) batch with
    | error e => rw [hr] at h; cases h
    | ok x =>
      rw [hr] at h
      cases h
      have hl : x.1.length = net.length := (run_get hr).1
      have hcs : (m.cache.lookup sig).isSome = (σ.fns.lookup sig).isSome := by
        rw [hq.cache, lookup_map]; simp
      simp only [Recording.next, hcs]
      refine ⟨?_, ?_⟩
      · simp only
        rw [withFlags_flags (by simp [hl, hq.len]), hq.flags]
        split_ifs <;> rfl
      · simp only
        cases hs : σ.fns.lookup sig with
        | none => simp [hq.cache]
        | some b => simpa using hq.cache
  | compile => cases h; exact ⟨hq.flags, rfl⟩
  | train qs =>
    cases h
    refine ⟨?_, hq.cache⟩
    refine Eq.trans ?_ hq.flags
    apply List.ext_getElem (by simp)
    intro i h1 h2
    simp
  | reset => cases h; exact ⟨by rw [resetMinmax_flags, hq.flags]; rfl, hq.cache⟩
  | trace o data =>
    simp only [Net.stepM, bind, Except.bind, pure, Except.pure] at h
    cases hr : net.traceMinmax ts outs bopsOf o m.layers data with
    | error e => rw [hr] at h; cases h
    | ok x =>
      rw [hr] at h
      cases h
      exact ⟨trace_flags hq.flags hr, hq.cache⟩
  | interrupted o n data =>
    simp only [Net.stepM, bind, Except.bind, pure, Except.pure] at h
    have f0 := start_flags (rst := o.rst) hq.flags
    cases hr : net.runBatches (if o.rst then net.forLayers (topLayers ts) (fun _ => startRecording) m.layers else m.layers)
      ((chunks o.bsz data).take n) with
    | error e => rw [hr] at h; cases h
    | ok x =>
      rw [hr] at h
      cases h
      have hl := congrArg List.length f0
      rw [List.length_map, flagsOf_length] at hl
      exact ⟨by rw [runBatches_flags hr hl, f0]; rfl, hq.cache⟩

theorem Tracks.history {net : Net} {ts : List LTree} {outs : List ℕ} {bopsOf : ℕ → List LState → Except String ℚ} :
    ∀ {ops : List MOp} {σ : Recording} {m m' : MState}, Tracks net ts σ m → net.history ts outs bopsOf m ops = .ok m' →
    Tracks net ts (ops.foldl Recording.next σ) m'
  | [], σ, m, m', hq, h => by cases h; exact hq
  | op :: ops, σ, m, m', hq, h => by
    simp only [Net.history, bind, Except.bind] at h
    cases hs : net.stepM ts outs bopsOf m op with
    | error e => rw [hs] at h; cases h
    | ok m1 =>
      rw [hs] at h
      exact Tracks.history (σ := σ.next op) (hq.step hs) h

/-! what a call records -/

theorem mapM_len {α β : Type} (g : α → Except String β) : ∀ {l : List α} {r : List β}, l.mapM g = .ok r → r.length = l.length
  | [], r, h => by cases h; rfl
  | a :: l, r, h => by
    rw [List.mapM_cons] at h
    simp only [bind, Except.bind, pure, Except.pure] at h
    cases ha : g a with
    | error e => rw [ha] at h; cases h
    | ok b =>
      rw [ha] at h
      simp only at h
      cases hl : l.mapM g with
      | error e => rw [hl] at h; cases h
      | ok bs =>
        rw [hl] at h
        cases h
        simp [mapM_len g hl]

theorem Node.call_records {nd : Node} {s s' : QState} {rec : Bool} {insB : List (List (List ℚ))} {outs : List (List ℚ)}
    (h : nd.call s rec insB = .ok (s', outs)) : outs.length = insB.length ∧
    ∀ q, nd.site = some q → ∃ zq : List (List ℚ), outs = zq.map (fun z => z.map nd.post) ∧
      (rec = true → s'.mn = (s.record q.elem zq).mn ∧ s'.mx = (s.record q.elem zq).mx) := by
  unfold Node.call at h
  cases hs : nd.site with
  | none =>
    rw [hs] at h
    cases h
    exact ⟨by simp, fun q hq => by cases hq⟩
  | some q =>
    rw [hs] at h
    simp only [QConf.call, bind, Except.bind] at h
    cases hf : q.conf.forwardBatch q.elem (fun e => q.conf.clip (s.fbw e)) (fun _ _ => 0) false (insB.map (nd.pre s.fbw)) with
    | error e => rw [hf] at h; cases h
    | ok zq =>
      rw [hf] at h
      have hlen : zq.length = insB.length := by
        have := mapM_len _ hf
        simpa using this
      cases rec with
      | false =>
        cases h
        exact ⟨by simp [hlen], fun q' hq' => ⟨zq, rfl, fun h => by cases h⟩⟩
      | true =>
        cases h
        refine ⟨by simp [hlen], fun q' hq' => ⟨zq, rfl, fun _ => ?_⟩⟩
        cases hq'
        exact ⟨rfl, rfl⟩

/-- the tensors computed are appended to the inputs -/
theorem run_prefix : ∀ {net : Net} {ss ss' : List LState} {envs o : List (List (List ℚ))}, net.run ss envs = .ok (ss', o) →
    ∀ (b : ℕ) env, envs[b]? = some env → ∃ out, o[b]? = some out ∧ ∀ j < env.length, out[j]? = env[j]?
  | [], ss, ss', envs, o, h => by
    cases h
    exact fun b env he => ⟨env, he, fun j _ => rfl⟩
  | (nd, ins) :: net, [], ss', envs, o, h => by cases h
  | (nd, ins) :: net, s :: ss, ss', envs, o, h => by
    unfold Net.run at h
    simp only [bind, Except.bind] at h
    cases hc : nd.call s.q s.recording (envs.map (gather · ins)) with
    | error e => rw [hc] at h; cases h
    | ok qo =>
      obtain ⟨q', outs⟩ := qo
      rw [hc] at h
      simp only at h
      cases hr : Net.run net ss (List.zipWith (fun env o => env ++ [o]) envs outs) with
      | error e => rw [hr] at h; cases h
      | ok r =>
        obtain ⟨ss1, o1⟩ := r
        rw [hr] at h
        cases h
        intro b env he
        have hlt : b < envs.length := (List.getElem?_eq_some_iff.mp he).1
        have hlo : outs.length = envs.length := by simpa using (Node.call_records hc).1
        obtain ⟨out, h1, h2⟩ := run_prefix hr b (env ++ [outs[b]]) (by
          rw [List.getElem?_zipWith, he, List.getElem?_eq_getElem (by omega)])
        exact ⟨out, h1, fun j hj => by rw [h2 j (by simp; omega), List.getElem?_append_left hj]⟩

theorem run_records : ∀ {net : Net} {ss ss' : List LState} {envs o : List (List (List ℚ))}, net.run ss envs = .ok (ss', o) →
    ∀ (i : ℕ) nd ins q s s', net[i]? = some (nd, ins) → nd.site = some q → ss[i]? = some s → ss'[i]? = some s' →
    s.recording = true → ∃ zq : List (List ℚ), zq.length = envs.length ∧
      (∀ (b : ℕ) env z, envs[b]? = some env → zq[b]? = some z →
        ∃ out, o[b]? = some out ∧ out[env.length + i]? = some (z.map nd.post)) ∧
      s'.q.mn = (s.q.record q.elem zq).mn ∧ s'.q.mx = (s.q.record q.elem zq).mx
  | [], ss, ss', envs, o, h => by intro i nd ins q s s' hn; simp at hn
  | (nd, ins) :: net, [], ss', envs, o, h => by cases h
  | (nd, ins) :: net, s :: ss, ss', envs, o, h => by
    unfold Net.run at h
    simp only [bind, Except.bind] at h
    cases hc : nd.call s.q s.recording (envs.map (gather · ins)) with
    | error e => rw [hc] at h; cases h
    | ok qo =>
      obtain ⟨q', outs⟩ := qo
      rw [hc] at h
      simp only at h
      cases hr : Net.run net ss (List.zipWith (fun env o => env ++ [o]) envs outs) with
      | error e => rw [hr] at h; cases h
      | ok r =>
        obtain ⟨ss1, o1⟩ := r
        rw [hr] at h
        cases h
        have hlo : outs.length = envs.length := by simpa using (Node.call_records hc).1
        have hnew : ∀ (b : ℕ) env, envs[b]? = some env → ∀ y, outs[b]? = some y →
            (List.zipWith (fun env o => env ++ [o]) envs outs)[b]? = some (env ++ [y]) := by
          intro b env he y hy
          rw [List.getElem?_zipWith, he, hy]
        intro i nd' ins' q t t' hn hq hs hs' hrec
        cases i with
        | zero =>
          simp at hn hs hs'
          obtain ⟨rfl, rfl⟩ := hn
          subst hs; subst hs'
          obtain ⟨zq, hz, hrr⟩ := (Node.call_records hc).2 q hq
          refine ⟨zq, by rw [← hlo, hz]; simp, fun b env z he hzb => ?_, hrr hrec⟩
          have hy : outs[b]? = some (z.map nd.post) := by rw [hz, List.getElem?_map, hzb]; rfl
          obtain ⟨out, h1, h2⟩ := run_prefix hr b _ (hnew b env he _ hy)
          exact ⟨out, h1, by rw [Nat.add_zero, h2 env.length (by simp)]; simp⟩
        | succ i =>
          obtain ⟨zq, hz1, hz2, hz3⟩ := run_records hr i nd' ins' q t t' (by simpa using hn) hq (by simpa using hs)
            (by simpa using hs') hrec
          refine ⟨zq, by rw [hz1]; simp [hlo], fun b env z he hzb => ?_, hz3⟩
          have hlt : b < envs.length := (List.getElem?_eq_some_iff.mp he).1
          obtain ⟨out, h1, h2⟩ := hz2 b _ z (hnew b env he _ (List.getElem?_eq_getElem (by omega))) hzb
          exact ⟨out, h1, by rw [← h2]; congr 1; simp; omega⟩

/-! ### C93 -/

/-- **C93** (exact). After any history of a model just built, also with interrupted calibrations and
`no_bops_computation=True`: an inference that `Spec.recordingAfter` says does not record leaves every range as it is. -/
theorem C93_exact_keeps (net : Net) (ts : List LTree) (outs : List ℕ) (bopsOf : ℕ → List LState → Except String ℚ)
    (m₀ m m' : MState) (ops : List MOp) (op : MOp) (hfresh : m₀.Fresh net)
    (hm : net.history ts outs bopsOf m₀ ops = .ok m) (hop : op.Inference)
    (hoff : (recordingAfter ops).records op = false) (hm' : net.stepM ts outs bopsOf m op = .ok m') :
    m'.ranges = m.ranges := by
  have hq : Tracks net ts (recordingAfter ops) m := (Tracks.fresh hfresh).history hm
  generalize recordingAfter ops = σ at hq hoff
  cases op with
  | call batch =>
    simp only [Net.stepM, bind, Except.bind, pure, Except.pure] at hm'
    cases hr : net.run m.layers batch with
    | error e => rw [hr] at hm'; cases hm'
    | ok x =>
      rw [hr] at hm'
      cases hm'
      have hσ : σ.on = false := hoff
      refine (run_quiet hr hq.len fun s hs => ?_).2.2
      have : s.recording ∈ m.layers.map (·.recording) := List.mem_map.mpr ⟨s, hs, rfl⟩
      rw [hq.flags, hσ] at this
      exact flagsOf_false _ _ _ this
  | predict sig batch =>
    have hσ : (σ.fns.lookup sig).getD σ.on = false := hoff
    simp only [Net.stepM, bind, Except.bind, pure, Except.pure] at hm'
    rw [hq.used sig, hσ] at hm'
    cases hr : net.run (withFlags m.layers (flagsOf net ts false)) batch with
    | error e => rw [hr] at hm'; cases hm'
    | ok x =>
      rw [hr] at hm'
      cases hm'
      have h3 := run_quiet hr (by simp [withFlags, flagsOf_length, hq.len]) (withFlags_off (flagsOf_false net ts))
      unfold MState.ranges
      rw [withFlags_ranges (by simp [h3.1, hq.len]), h3.2.2, withFlags_ranges (by rw [flagsOf_length, hq.len])]
  | _ => exact absurd hop (by simp [MOp.Inference])

/-- **C93** (exact, the other case). After any history of a model just built: an inference that `Spec.recordingAfter` says
records sets the ranges of every quantizer listed by the model to the smallest ones that contain the ranges before and the
values `zq` the quantizer produced, of which the layer's output is the activation; the ranges of all other layers stay. -/
theorem C93_exact_records (net : Net) (ts : List LTree) (outs : List ℕ) (bopsOf : ℕ → List LState → Except String ℚ)
    (m₀ m m' : MState) (ops : List MOp) (op : MOp) (hfresh : m₀.Fresh net)
    (hm : net.history ts outs bopsOf m₀ ops = .ok m) (hop : op.Inference)
    (hon : (recordingAfter ops).records op = true) (hm' : net.stepM ts outs bopsOf m op = .ok m')
    (i : ℕ) (nd : Node) (ins : List ℕ) (s s' : LState) (hn : net[i]? = some (nd, ins)) (hs : m.layers[i]? = some s)
    (hs' : m'.layers[i]? = some s') :
    (¬ (i ∈ topLayers ts ∧ nd.site.isSome) → s'.q.mn = s.q.mn ∧ s'.q.mx = s.q.mx) ∧
    ∀ q, nd.site = some q → i ∈ topLayers ts → ∃ ss ss' o, net.run ss (batchOf op) = .ok (ss', o) ∧
      ss.map (·.q) = m.layers.map (·.q) ∧ ∃ zq : List (List ℚ), zq.length = (batchOf op).length ∧
      (∀ (b : ℕ) env z, (batchOf op)[b]? = some env → zq[b]? = some z →
        ∃ out, o[b]? = some out ∧ out[env.length + i]? = some (z.map nd.post)) ∧
      ∀ e, (∀ lo, lo ≤ s'.q.mn e ↔ lo ≤ s.q.mn e ∧ ∀ z ∈ zq, ∀ (p : ℕ) (v : ℚ), z[p]? = some v → q.elem p = e → lo ≤ (v : WithTop ℚ)) ∧
        (∀ hi, s'.q.mx e ≤ hi ↔ s.q.mx e ≤ hi ∧ ∀ z ∈ zq, ∀ (p : ℕ) (v : ℚ), z[p]? = some v → q.elem p = e → (v : WithBot ℚ) ≤ hi) := by
  have hq : Tracks net ts (recordingAfter ops) m := (Tracks.fresh hfresh).history hm
  generalize recordingAfter ops = σ at hq hon
  -- both kinds of inference run the layers with recording on
  have key : ∃ ss ss1 o, net.run ss (batchOf op) = .ok (ss1, o) ∧ ss.map (·.q) = m.layers.map (·.q) ∧
      ss.map (·.recording) = flagsOf net ts true ∧ m'.layers.map (·.q) = ss1.map (·.q) := by
    cases op with
    | call batch =>
      simp only [Net.stepM, bind, Except.bind, pure, Except.pure] at hm'
      cases hr : net.run m.layers batch with
      | error e => rw [hr] at hm'; cases hm'
      | ok x =>
        rw [hr] at hm'
        cases hm'
        have hσ : σ.on = true := hon
        exact ⟨m.layers, x.1, x.2, hr, rfl, by rw [hq.flags, hσ], rfl⟩
    | predict sig batch =>
      have hσ : (σ.fns.lookup sig).getD σ.on = true := hon
      simp only [Net.stepM, bind, Except.bind, pure, Except.pure] at hm'
      rw [hq.used sig, hσ] at hm'
      cases hr : net.run (withFlags m.layers (flagsOf net ts true)) batch with
      | error e => rw [hr] at hm'; cases hm'
      | ok x =>
        rw [hr] at hm'
        cases hm'
        have qs : ∀ {l : List LState} {fl : List Bool}, fl.length = l.length → (withFlags l fl).map (·.q) = l.map (·.q) := by
          intro l fl hl
          apply List.ext_getElem
          · simp [withFlags, hl]
          · intro j h1 h2; simp [withFlags]
        exact ⟨_, x.1, x.2, hr, qs (by rw [flagsOf_length, hq.len]), withFlags_flags (by rw [flagsOf_length, hq.len]),
          qs (by simp [(run_get hr).1, hq.len])⟩
    | _ => exact absurd hop (by simp [MOp.Inference])
  obtain ⟨ss, ss1, o, hr, hqs, hfl, hq1⟩ := key
  obtain ⟨t, ht, htq⟩ : ∃ t, ss[i]? = some t ∧ t.q = s.q := by
    have := congrArg (·[i]?) hqs
    simp only [List.getElem?_map, hs, Option.map_some, Option.map_eq_some_iff] at this
    exact this
  obtain ⟨t1, ht1, htq1⟩ : ∃ t, ss1[i]? = some t ∧ t.q = s'.q := by
    have := congrArg (·[i]?) hq1
    simp only [List.getElem?_map, hs', Option.map_some] at this
    exact Option.map_eq_some_iff.mp this.symm
  have hrec : t.recording = decide (i ∈ topLayers ts ∧ nd.site.isSome = true) := by
    have := congrArg (·[i]?) hfl
    simp only [List.getElem?_map, ht, Option.map_some, flagsOf, List.getElem?_mapIdx, hn, Option.some.injEq,
      Bool.true_and] at this
    exact this
  refine ⟨fun hI => ?_, fun q hsq hi => ?_⟩
  · obtain ⟨t', ht', -, hk⟩ := (run_get hr).2 i (nd, ins) t1 hn ht1
    rw [ht] at ht'
    cases ht'
    rw [← htq1, ← htq]
    exact hk fun _ => by rw [hrec]; simpa using hI
  · obtain ⟨zq, h1, h2, h3, h4⟩ := run_records hr i nd ins q t t1 hn hsq ht ht1 (by rw [hrec]; simp [hi, hsq])
    refine ⟨ss, ss1, o, hr, hqs, zq, h1, h2, fun e => ?_⟩
    have hmem : ∀ v, (e, v) ∈ batchPairs q.elem zq ↔ ∃ z ∈ zq, ∃ p, z[p]? = some v ∧ q.elem p = e := fun v => mem_batchPairs
    rw [← htq1, ← htq, h3, h4]
    simp only [QState.record, le_min_iff, max_le_iff, le_reduceMin_iff, reduceMax_le_iff, hmem]
    refine ⟨fun lo => ?_, fun hi => ?_⟩
    · rw [and_comm]
      refine and_congr_right fun _ => ⟨fun h z hz p v hv he => h v ⟨z, hz, p, hv, he⟩, ?_⟩
      rintro h v ⟨z, hz, p, hv, he⟩
      exact h z hz p v hv he
    · rw [and_comm]
      refine and_congr_right fun _ => ⟨fun h z hz p v hv he => h v ⟨z, hz, p, hv, he⟩, ?_⟩
      rintro h v ⟨z, hz, p, hv, he⟩
      exact h z hz p v hv he

/-- a history with an interrupted calibration and `no_bops_computation=True`: the compiled function of signature 0 records, the
one of signature 1 does not, direct calls do not -/
example : let ops := [MOp.interrupted { bsz := 1 } 1 [[[1]], [[2]]], .predict 0 [[[3]]], .trace {} [[[1]], [[-3]]],
      .predict 1 [[[1]]]]
    ((recordingAfter ops).records (.predict 0 [[[9]]]), (recordingAfter ops).records (.predict 1 [[[9]]]),
      (recordingAfter ops).records (.call [[[9]]])) = (true, false, false) ∧
    MState.rangeAt 0 0 (exRun ops) = range (-3) 1 ∧
    MState.rangeAt 0 0 (exRun (ops ++ [.predict 0 [[[9]]]])) = range (-3) 9 ∧
    MState.rangeAt 0 0 (exRun (ops ++ [.predict 1 [[[9]]]])) = range (-3) 1 ∧
    MState.rangeAt 0 0 (exRun (ops ++ [.call [[[9]]]])) = range (-3) 1 := by
  decide +kernel

end HGQ
