import Verif.Props.Trace

/-!
C48, after an ordinary first call: the dataset of a second call with `rst=False` has no influence, whatever the other arguments of
the second call, and its cover factor is applied to the ranges of the first call.
-/

namespace HGQ

open Spec

/-- after an ordinary call no layer of the model is recording -/
theorem traceStates_off {net : Net} {ts : List LTree} {o : TraceOpts} {ss : List LState} {data : List (List (List ℚ))}
    (hc : net.Clip ss) (hno : o.noBops = false)
    (hnested : ∀ (i : ℕ) s, ss[i]? = some s → i ∉ topLayers ts → s.recording = false) :
    net.AllS (fun nd s => nd.site.isSome = true → s.recording = false) (net.traceStates (topLayers ts) o ss data) := by
  have hlen := Net.AllS.length hc
  have hc1 : net.Clip (net.traceStates (topLayers ts) o ss data) := clip_traceStates hc
  rw [allS_iff_get]
  refine ⟨Net.AllS.length hc1, fun i ni s hn hs hsite => ?_⟩
  by_cases hI : i ∈ topLayers ts
  · unfold Net.traceStates at hs
    simp only [hno, Bool.false_eq_true, if_false] at hs
    rw [forLayers_get, hn] at hs
    revert hs
    generalize (net.forLayers (topLayers ts) (fun nd s => (⟨nd.adjust s.q, s.recording⟩ : LState)) _)[i]? = X
    intro hs
    cases X with
    | none => cases hs
    | some x =>
      simp only [hI, hsite, and_self, if_true, Option.some.injEq] at hs
      rw [← hs]
  · rw [traceStates_other hlen hI (fun s hs => hnested i s hs hI)] at hs
    exact hnested i s hs hI

/-- **C48**, the other case, any second call with `rst=False`: after an ordinary first call the second one gives the same ranges,
the same BOPs and the same success or error on every dataset. -/
theorem C48_second_call_ignores_data (net : Net) (ts : List LTree) (outs : List ℕ)
    (bopsOf : ℕ → List LState → Except String ℚ) (o₁ o₂ : TraceOpts) (ss s1 : List LState) (r1 : TraceRes)
    (d1 d2 d2' : List (List (List ℚ))) (hc : net.Clip ss) (hb₂ : 0 < o₂.bsz) (hcov : 0 < o₂.cover)
    (hnested : ∀ (i : ℕ) s, ss[i]? = some s → i ∉ topLayers ts → s.recording = false)
    (hno₁ : o₁.noBops = false) (hrst : o₂.rst = false) (hp₂ : o₂.returnPredictions = false)
    (h1 : net.traceMinmax ts outs bopsOf o₁ ss d1 = .ok (s1, r1)) :
    net.traceMinmax ts outs bopsOf o₂ s1 d2 = net.traceMinmax ts outs bopsOf o₂ s1 d2' := by
  obtain ⟨-, -, hs1⟩ := traceMinmax_states hc h1
  have hc1 : net.Clip s1 := by rw [hs1]; exact clip_traceStates hc
  have hoff : net.AllS (fun nd s => nd.site.isSome = true → s.recording = false) s1 := by
    rw [hs1]; exact traceStates_off hc hno₁ hnested
  have key : ∀ d, net.traceStates (topLayers ts) o₂ s1 d = net.traceStates (topLayers ts) o₂ s1 [] := by
    intro d
    unfold Net.traceStates
    simp only [hrst, Bool.false_eq_true, if_false]
    rw [afterL_off d hoff, afterL_off [] hoff]
  rw [Net.traceMinmax_eq net ts outs bopsOf o₂ s1 d2 hc1 hb₂ hcov, Net.traceMinmax_eq net ts outs bopsOf o₂ s1 d2' hc1 hb₂ hcov,
    key d2, key d2']
  simp only [hp₂, Bool.false_eq_true, if_false]

/-- **C48**, the other case: what the second call does instead is to apply its cover factor to the ranges of the first call, so that
repeated calls with the same factor and the same data widen the ranges again and again. -/
theorem C48_second_call_covers (net : Net) (ts : List LTree) (outs : List ℕ)
    (bopsOf : ℕ → List LState → Except String ℚ) (o₁ o₂ : TraceOpts) (ss s1 s2 : List LState) (r1 r2 : TraceRes)
    (d1 d2 : List (List (List ℚ))) (hc : net.Clip ss)
    (hnested : ∀ (i : ℕ) s, ss[i]? = some s → i ∉ topLayers ts → s.recording = false)
    (hno₁ : o₁.noBops = false) (hrst : o₂.rst = false) (hcov : o₂.cover ≠ 1)
    (h1 : net.traceMinmax ts outs bopsOf o₁ ss d1 = .ok (s1, r1)) (h2 : net.traceMinmax ts outs bopsOf o₂ s1 d2 = .ok (s2, r2))
    (i : ℕ) (nd : Node) (ins : List ℕ) (q : QSite) (a b : LState) (hn : net[i]? = some (nd, ins)) (hq : nd.site = some q)
    (hI : i ∈ topLayers ts) (ha : s1[i]? = some a) (hb : s2[i]? = some b) :
    b.q = nd.adjust (q.conf.cover o₂.cover a.q) := by
  obtain ⟨-, -, hs1⟩ := traceMinmax_states hc h1
  have hc1 : net.Clip s1 := by rw [hs1]; exact clip_traceStates hc
  obtain ⟨-, -, hs2⟩ := traceMinmax_states hc1 h2
  have hoff : net.AllS (fun nd s => nd.site.isSome = true → s.recording = false) s1 := by
    rw [hs1]; exact traceStates_off hc hno₁ hnested
  rw [hs2] at hb
  unfold Net.traceStates at hb
  simp only [hrst, Bool.false_eq_true, if_false, ne_eq, hcov, not_false_eq_true, if_true] at hb
  rw [afterL_off d2 hoff] at hb
  have hsite : nd.site.isSome = true := by rw [hq]; rfl
  split_ifs at hb
  · rw [forLayers_get, forLayers_get, hn, ha] at hb
    simp only [hI, hsite, and_self, if_true, Option.some.injEq] at hb
    rw [← hb]; unfold Node.cover; rw [hq]
  · rw [forLayers_get, forLayers_get, forLayers_get, hn, ha] at hb
    simp only [hI, hsite, and_self, if_true, Option.some.injEq] at hb
    rw [← hb]; unfold Node.cover; rw [hq]

/-- the layer is not an `HActivation` with sigmoid or tanh, whose recorded range is cut at the end of every call -/
def Node.uncut : Node → Prop
  | .activation .sigmoid _ _ => False
  | .activation .tanh _ _ => False
  | _ => True

theorem Node.cover_after_adjust (nd : Node) (h : nd.uncut) (c : ℚ) (s : QState) (r r' : Bool) (b : List (List (List ℚ))) :
    nd.adjust (Node.cover c nd ⟨nd.after (nd.adjust s) r b, r'⟩).q = nd.adjust (Node.cover c nd ⟨nd.after s r b, r'⟩).q := by
  cases nd with
  | activation kind φ q =>
    cases kind with
    | sigmoid => cases h
    | tanh => cases h
    | other => rfl
    | softmax => cases r <;> simp [Node.adjust, Node.after, Node.site, QState.record, Node.cover, QConf.cover]
  | _ => rfl

theorem cover_after_adj (I : List ℕ) (c : ℚ) : ∀ (k : ℕ) (net : Net) (ss : List LState) (envs : List (List (List ℚ))),
    (∀ (i : ℕ) (nd : Node) (ins : List ℕ) (s : LState), net[i]? = some (nd, ins) → ss[i]? = some s → k + i ∈ I →
      nd.uncut ∨ nd.adjust s.q = s.q) →
    let A : Node → LState → LState := fun nd s => ⟨nd.adjust s.q, s.recording⟩
    Net.forLayersFrom I A k net (Net.forLayersFrom I (Node.cover c) k net (net.afterL (Net.forLayersFrom I A k net ss) envs)) =
      Net.forLayersFrom I A k net (Net.forLayersFrom I (Node.cover c) k net (net.afterL ss envs))
  | _, [], _, _, _ => rfl
  | _, _ :: _, [], _, _ => rfl
  | k, (nd, ins) :: net, s :: ss, envs, hu => by
    intro A
    have ih := cover_after_adj I c (k + 1) net ss (envs.map fun env => env ++ [nd.out s.q.fbw (gather env ins)])
      fun i nd' ins' s' h1 h2 h3 => hu (i + 1) nd' ins' s' (by simpa using h1) (by simpa using h2)
        (by rw [show k + (i + 1) = k + 1 + i by omega]; exact h3)
    simp only [Net.forLayersFrom, Net.afterL]
    by_cases h : k ∈ I ∧ nd.site.isSome
    · simp only [if_pos h]
      have hf : (A nd s).q.fbw = s.q.fbw := adjust_fbw nd s.q
      rw [hf]
      congr 1
      have hr : ∀ x : LState, (Node.cover c nd x).recording = x.recording := by
        intro x; unfold Node.cover; cases nd.site <;> rfl
      show (⟨nd.adjust (Node.cover c nd ⟨nd.after (nd.adjust s.q) s.recording _, s.recording⟩).q, _⟩ : LState) =
        ⟨nd.adjust (Node.cover c nd ⟨nd.after s.q s.recording _, s.recording⟩).q, _⟩
      rcases hu 0 nd ins s rfl rfl h.1 with h1 | h1
      · rw [Node.cover_after_adjust nd h1, hr, hr]
      · rw [h1, hr, hr]
    · simp only [if_neg h]
      congr 1

/-- sigmoid and tanh have the ranges `trace_minmax` assumes, and their quantizers no negative fractional bits -/
def Node.KeepsCut (nd : Node) (s : QState) : Prop :=
  ∃ kind φ q, nd = .activation kind φ q ∧ ActOk kind φ ∧ ∀ e, 0 ≤ tfRound (s.fbw e)

/-- such layers record nothing the cut would change -/
theorem adjust_recorded {nd : Node} {s : QState} (hu : ¬ nd.uncut) (h : nd.KeepsCut s) (r : Bool) (insB : List (List (List ℚ))) :
    nd.adjust (nd.after s.reset r insB) = nd.after s.reset r insB := by
  obtain ⟨kind, φ, q, rfl, hact, hf⟩ := h
  have hfb : s.reset.fbw = s.fbw := rfl
  -- the values recorded
  have key : ∀ lo : ℤ, (∀ x p, (lo : ℚ) ≤ (φ x).getD p 0 ∧ (φ x).getD p 0 ≤ 1) → ∀ e,
      (((lo : ℚ) : ℚ) : WithTop ℚ) ≤ ((Node.activation kind φ q).after s.reset r insB).mn e ∧
      ((Node.activation kind φ q).after s.reset r insB).mx e ≤ ((1 : ℚ) : WithBot ℚ) := by
    intro lo hlo e
    unfold Node.after
    cases r with
    | false => exact ⟨le_top, bot_le⟩
    | true =>
      have hval : ∀ v, (e, v) ∈ batchPairs q.elem ((insB.map ((Node.activation kind φ q).pre s.reset.fbw)).map
          (qSample q.conf q.elem s.reset.fbw)) → (lo : ℚ) ≤ v ∧ v ≤ ((1 : ℤ) : ℚ) := by
        intro v hv
        rw [mem_values (nd := .activation kind φ q) rfl] at hv
        obtain ⟨ins, -, p, -, -, rfl⟩ := hv
        have := hlo (ins.headD []) p
        exact evalQ_between (hf _) this.1 (by rw [Int.cast_one]; exact this.2)
      constructor
      · refine le_min ?_ le_top
        rw [le_reduceMin_iff]
        exact fun v hv => WithTop.coe_le_coe.mpr (hval v hv).1
      · refine max_le ?_ bot_le
        rw [reduceMax_le_iff]
        exact fun v hv => WithBot.coe_le_coe.mpr (by simpa using (hval v hv).2)
  cases kind with
  | other => exact absurd trivial hu
  | softmax => exact absurd trivial hu
  | sigmoid =>
    have k := key 0 (fun x p => by rw [Int.cast_zero]; exact hact x p)
    simp only [Node.adjust]
    congr 1
    · funext e; exact max_eq_left (by simpa using (k e).1)
    · funext e; exact min_eq_left (k e).2
  | tanh =>
    have k := key (-1) (fun x p => by rw [Int.cast_neg, Int.cast_one]; exact hact x p)
    simp only [Node.adjust]
    congr 1
    · funext e; exact max_eq_left (by simpa using (k e).1)
    · funext e; exact min_eq_left (k e).2

/-- **C48** (partial), any cover factor in the second call: if the first call left the recording on
(`no_bops_computation=True`), a second call with `rst=False` gives exactly what one call with its arguments on both datasets gives.
Missing: sigmoid and tanh activations with negative fractional bits (for factor 1 they are covered by `C48_extends_partial`; with other
factors the range that is widened has already been cut once, by the first call: `C48_cut_twice`). -/
theorem C48_extends_cover_partial (net : Net) (ts : List LTree) (outs : List ℕ) (bopsOf : ℕ → List LState → Except String ℚ)
    (o₁ o₂ : TraceOpts) (ss s1 : List LState) (r1 : TraceRes) (d1 d2 : List (List (List ℚ))) (hc : net.Clip ss)
    (hu : net.AllS (fun nd s => nd.uncut ∨ nd.KeepsCut s.q) ss) (hb₂ : 0 < o₂.bsz) (hcov : 0 < o₂.cover)
    (hp : o₂.returnPredictions = false)
    (h1 : net.traceMinmax ts outs bopsOf { o₁ with noBops := true, rst := true, cover := 1 } ss d1 = .ok (s1, r1)) :
    net.traceMinmax ts outs bopsOf { o₂ with rst := false } s1 d2 =
      net.traceMinmax ts outs bopsOf { o₂ with rst := true } ss (d1 ++ d2) := by
  obtain ⟨hb₁, -, rfl⟩ := traceMinmax_states hc h1
  by_cases hone : o₂.cover = 1
  · have := C48_extends_partial net ts outs bopsOf o₁ o₂ ss _ r1 d1 d2 hc hb₁ hb₂ hp h1
    rw [← hone] at this
    convert this using 2
    simp [hone]
  rw [Net.traceMinmax_eq net ts outs bopsOf { o₂ with rst := false } _ d2 (clip_traceStates hc) hb₂ hcov,
    Net.traceMinmax_eq net ts outs bopsOf { o₂ with rst := true } ss (d1 ++ d2) hc hb₂ hcov]
  have hu' : ∀ (i : ℕ) (nd : Node) (ins : List ℕ) (s : LState), net[i]? = some (nd, ins) →
      (net.afterL (net.forLayers (topLayers ts) (fun _ => startRecording) ss) d1)[i]? = some s → 0 + i ∈ topLayers ts →
      nd.uncut ∨ nd.adjust s.q = s.q := by
    intro i nd ins s hn hs hI
    by_cases hunc : nd.uncut
    · exact .inl hunc
    right
    obtain ⟨hlen, hget⟩ := allS_iff_get.mp hu
    have hi : i < ss.length := by rw [hlen]; exact (List.getElem?_eq_some_iff.mp hn).1
    have hs0 : ss[i]? = some ss[i] := List.getElem?_eq_getElem hi
    have hk := (hget i (nd, ins) ss[i] hn hs0).resolve_left hunc
    have hsite : nd.site.isSome = true := by
      obtain ⟨kind, φ, q, rfl, -⟩ := hk
      rfl
    have hst : (net.forLayers (topLayers ts) (fun _ => startRecording) ss)[i]? = some (startRecording ss[i]) := by
      rw [forLayers_get, hn, hs0]
      rw [Nat.zero_add] at hI
      simp only [hI, hsite, and_self, if_true]
    rw [afterL_get net _ d1 i nd ins (startRecording ss[i]) hn hst, Option.some.injEq] at hs
    rw [← hs]
    exact adjust_recorded hunc hk _ _
  have key : net.traceStates (topLayers ts) { o₂ with rst := false }
      (net.traceStates (topLayers ts) { o₁ with noBops := true, rst := true, cover := 1 } ss d1) d2 =
      net.traceStates (topLayers ts) { o₂ with rst := true } ss (d1 ++ d2) := by
    simp only [Net.traceStates, if_true, if_false, ne_eq, not_true, Bool.false_eq_true, hone, not_false_eq_true]
    have e := cover_after_adj (topLayers ts) o₂.cover 0 net
      (net.afterL (net.forLayers (topLayers ts) (fun _ => startRecording) ss) d1) d2 hu'
    rw [afterL_append] at e
    unfold Net.forLayers at *
    rw [e]
  rw [key]
  simp only [hp, Bool.false_eq_true, if_false]

/-! Non-vacuity: one quantizer, calibrated with factor 2, then called again with factor 2 -/

example (s1 : List LState) (r1 : TraceRes) (d : List (List (List ℚ)))
    (h : exOne.traceMinmax [.layer 0] [1] (fun _ _ => .ok 0) { cover := 2 } [exQzState] [[[1]], [[-3]]] = .ok (s1, r1)) :
    exOne.traceMinmax [.layer 0] [1] (fun _ _ => .ok 0) { rst := false, cover := 2, noBops := true } s1 [[[5]]] =
      exOne.traceMinmax [.layer 0] [1] (fun _ _ => .ok 0) { rst := false, cover := 2, noBops := true } s1 d :=
  C48_second_call_ignores_data exOne [.layer 0] [1] _ { cover := 2 } { rst := false, cover := 2, noBops := true } [exQzState] s1 r1
    _ _ _ exOne_clip (by decide) (by norm_num)
    (fun i s hs hI => by
      cases i with
      | zero => exact absurd (by simp [topLayers]) hI
      | succ i => simp at hs) rfl rfl rfl h

-- [-3, 1] is widened to [-5, 3] by the first call and to [-9, 7] by the second one
example : let t := exOne.traceMinmax [.layer 0] [1] (fun _ _ => .ok 0) { cover := 2 } [exQzState] [[[1]], [[-3]]]
    rangeOf 0 0 t = range (-5) 3 ∧
    rangeOf 0 0 (exOne.traceMinmax [.layer 0] [1] (fun _ _ => .ok 0) { rst := false, cover := 2 } (statesOf t) [[[0]]]) =
      range (-9) 7 := by
  decide +kernel

example (s1 : List LState) (r1 : TraceRes)
    (h : exOne.traceMinmax [.layer 0] [1] (fun _ _ => .ok 0) { noBops := true } [exQzState] [[[1]], [[-3]]] = .ok (s1, r1)) :
    exOne.traceMinmax [.layer 0] [1] (fun _ _ => .ok 0) { rst := false, cover := 2 } s1 [[[5]]] =
      exOne.traceMinmax [.layer 0] [1] (fun _ _ => .ok 0) { cover := 2 } [exQzState] ([[[1]], [[-3]]] ++ [[[5]]]) :=
  C48_extends_cover_partial exOne [.layer 0] [1] _ {} { cover := 2 } [exQzState] s1 r1 _ _ exOne_clip
    ⟨.inl trivial, trivial⟩ (by decide) (by norm_num) rfl h

example : let t := exOne.traceMinmax [.layer 0] [1] (fun _ _ => .ok 0) { noBops := true } [exQzState] [[[1]], [[-3]]]
    rangeOf 0 0 (exOne.traceMinmax [.layer 0] [1] (fun _ _ => .ok 0) { rst := false, cover := 2 } (statesOf t) [[[5]]]) =
      range (-7) 9 := by
  decide +kernel

/-- **C48** fails for sigmoid and tanh with negative fractional bits, also after a first call with `no_bops_computation=True`: the range
[-2, 0] of the first dataset is cut to [-1, 0] before the cover factor 3 of the second call widens it; one call on both datasets gives
[-1, 1]. -/
theorem C48_cut_twice :
    let t := exTanh.traceMinmax [.layer 0] [1] (fun _ _ => .ok 0) { noBops := true } [⟨exTanhState, false⟩] [[[1]], [[-1]]]
    rangeOf 0 0 (exTanh.traceMinmax [.layer 0] [1] (fun _ _ => .ok 0) { rst := false, cover := 3 } (statesOf t) [[[0]]]) = range (-1) 0 ∧
    rangeOf 0 0 (exTanh.traceMinmax [.layer 0] [1] (fun _ _ => .ok 0) { cover := 3 } [⟨exTanhState, false⟩]
      ([[[1]], [[-1]]] ++ [[[0]]])) = range (-1) 1 := by
  decide +kernel

/-- the same layer with two fractional bits -/
def exTanhState2 : LState := ⟨⟨fun _ => 2, fun _ => ⊤, fun _ => ⊥⟩, false⟩

example (s1 : List LState) (r1 : TraceRes)
    (h : exTanh.traceMinmax [.layer 0] [1] (fun _ _ => .ok 0) { noBops := true } [exTanhState2] [[[1]], [[-1 / 3]]] = .ok (s1, r1)) :
    exTanh.traceMinmax [.layer 0] [1] (fun _ _ => .ok 0) { rst := false, cover := 3 } s1 [[[0]]] =
      exTanh.traceMinmax [.layer 0] [1] (fun _ _ => .ok 0) { cover := 3 } [exTanhState2] ([[[1]], [[-1 / 3]]] ++ [[[0]]]) := by
  refine C48_extends_cover_partial exTanh [.layer 0] [1] _ {} { cover := 3 } [exTanhState2] s1 r1 _ _ ?_ ?_ (by decide) (by norm_num) rfl h
  · refine ⟨?_, trivial⟩
    intro q hq e
    cases hq
    show QConf.clip _ 2 = 2
    decide +kernel
  · refine ⟨.inr ⟨_, _, _, rfl, ?_, fun e => by show 0 ≤ tfRound 2; decide +kernel⟩, trivial⟩
    intro x p
    rw [List.getD_eq_getElem?_getD, List.getElem?_map]
    cases x[p]? with
    | none => norm_num
    | some v => exact ⟨le_max_left _ _, max_le (by norm_num) (min_le_left _ _)⟩

end HGQ
