import Verif.Props.BitsFlow
import Verif.Model.Callbacks
import Mathlib.Tactic.IntervalCases

/-!
C85: the BOPs logged by `CalibratedBOPs` (and returned by `trace_minmax`) depend on the current weights and bitwidths and on the
calibration data, not on what happened before.
-/

namespace HGQ

/-- the states of the layers with quantizers are the same -/
def Net.SameQ (net : Net) (a b : List LState) : Prop :=
  a.length = b.length ∧ ∀ (i : ℕ) nd ins, net[i]? = some (nd, ins) → nd.site.isSome → a[i]? = b[i]?

theorem actBitsEnv_congr : ∀ (net : Net) (rs : List BwRule) (cs : List ℕ) (a b : List LState) (env : List (Except String (List ℤ))),
    net.SameQ a b → actBitsEnv net rs cs a env = actBitsEnv net rs cs b env
  | [], _, _, _, _, _, _ => by simp [actBitsEnv]
  | _ :: _, [], _, _, _, _, _ => by simp [actBitsEnv]
  | _ :: _, _ :: _, [], _, _, _, _ => by simp [actBitsEnv]
  | (nd, ins) :: net, r :: rs, c :: cs, [], [], env, _ => rfl
  | (nd, ins) :: net, r :: rs, c :: cs, [], t :: b, env, h => absurd h.1 (by simp)
  | (nd, ins) :: net, r :: rs, c :: cs, s :: a, [], env, h => absurd h.1 (by simp)
  | (nd, ins) :: net, r :: rs, c :: cs, s :: a, t :: b, env, h => by
    have e : actBitsOf nd r c s.q env ins = actBitsOf nd r c t.q env ins := by
      unfold actBitsOf
      cases r with
      | layer posOnly =>
        dsimp only
        cases hs : nd.site with
        | none => rfl
        | some q =>
          have := h.2 0 nd ins rfl (by rw [hs]; rfl)
          simp only [List.getElem?_cons_zero, Option.some.injEq] at this
          rw [this]
      | _ => rfl
    unfold actBitsEnv
    rw [e]
    refine actBitsEnv_congr net rs cs a b _ ⟨by simpa using h.1, fun i nd' ins' h1 h2 => ?_⟩
    have := h.2 (i + 1) nd' ins' (by simpa using h1) h2
    simpa using this

theorem exactBops_congr {net : Net} {m : BopsModel} {fl : ℚ → ℚ} {a b : List LState} (h : net.SameQ a b) (i : ℕ) :
    net.exactBops m fl i a = net.exactBops m fl i b := by
  unfold Net.exactBops
  rw [actBitsEnv_congr net m.bw m.calls a b _ h]

theorem sumBops_congr {f : ℕ → List LState → Except String ℚ} {a b : List LState} (h : ∀ i, f i a = f i b) :
    ∀ l, sumBops f a l = sumBops f b l
  | [] => rfl
  | i :: l => by unfold sumBops; rw [h i, sumBops_congr h l]

theorem traceStates_same {net : Net} {ts : List LTree} {o : TraceOpts} {a b : List LState} {data : List (List (List ℚ))}
    (ha : a.length = net.length) (hb : b.length = net.length) (hf : a.map (fun s => s.q.fbw) = b.map fun s => s.q.fbw)
    (hrst : o.rst = true) (hno : o.noBops = false)
    (hall : ∀ (i : ℕ) nd ins, net[i]? = some (nd, ins) → nd.site.isSome → LTree.layer i ∈ ts) :
    net.SameQ (net.traceStates (topLayers ts) o a data) (net.traceStates (topLayers ts) o b data) := by
  refine ⟨by rw [traceStates_length ha, traceStates_length hb], fun i nd ins hn hsite => ?_⟩
  obtain ⟨q, hq⟩ := Option.isSome_iff_exists.mp hsite
  have hi : i < net.length := (List.getElem?_eq_some_iff.mp hn).1
  have hsa : a[i]? = some (a[i]'(by omega)) := List.getElem?_eq_getElem _
  have hsb : b[i]? = some (b[i]'(by omega)) := List.getElem?_eq_getElem _
  generalize a[i]'(by omega) = sa at hsa
  generalize b[i]'(by omega) = sb at hsb
  have hff : sa.q.fbw = sb.q.fbw := by
    have := congrArg (fun l => l[i]?) hf
    simp only [List.getElem?_map, hsa, hsb, Option.map_some, Option.some.injEq] at this
    exact this
  have hreset : sa.q.reset = sb.q.reset := by
    unfold QState.reset
    rw [hff]
  have hl := hall i nd ins hn hsite
  have hrec : ∀ ss : List LState, ss.length = net.length → ∀ s', (net.traceStates (topLayers ts) o ss data)[i]? = some s' →
      s'.recording = false := by
    intro ss hss s' hs'
    unfold Net.traceStates at hs'
    simp only [hno, Bool.false_eq_true, if_false] at hs'
    rw [forLayers_get, hn] at hs'
    split at hs'
    · rename_i h1 h2
      cases h1
      rw [if_pos ⟨mem_topLayers hl, hsite⟩] at hs'
      cases hs'
      rfl
    · cases hs'
  obtain ⟨r1, h1⟩ := traceStates_get (o := o) (data := data) ha hrst hn hsa hq hl
  obtain ⟨r2, h2⟩ := traceStates_get (o := o) (data := data) hb hrst hn hsb hq hl
  have e1 := hrec a ha _ h1
  have e2 := hrec b hb _ h2
  simp only at e1 e2
  subst e1 e2
  rw [h1, h2, hreset, hf]

/-- **C85**: two models with the same weights and the same bitwidths, whose layers may have recorded different ranges and may be
recording or not, log the same BOPs, or fail with the same error, whatever batch sizes the two callbacks were given; and
afterwards all their quantizers are in the same state. All HGQ layers are layers of the model itself (`C49_nested_not_traced`). -/
theorem C85_history_independent (net : Net) (ts : List LTree) (outs : List ℕ) (m : BopsModel) (fl : ℚ → ℚ) (d : CalData)
    (bsz bsz' : Option ℕ) (a b : List LState) (ha : net.Clip a) (hb : net.Clip b)
    (hf : a.map (fun s => s.q.fbw) = b.map fun s => s.q.fbw) (hd : d.len ≠ 0)
    (hall : ∀ (i : ℕ) nd ins, net[i]? = some (nd, ins) → nd.site.isSome → LTree.layer i ∈ ts) :
    match net.calibratedBops ts outs (net.exactBops m fl) d bsz a, net.calibratedBops ts outs (net.exactBops m fl) d bsz' b with
    | .ok (a', r), .ok (b', r') => r = r' ∧ net.SameQ a' b'
    | .error e, .error e' => e = e'
    | _, _ => False := by
  have hpos : ∀ bsz : Option ℕ, 0 < d.batch bsz := by
    intro bsz
    cases bsz with
    | none => exact Nat.pos_of_ne_zero hd
    | some b =>
      unfold CalData.batch
      dsimp only
      split_ifs with h
      · exact Nat.pos_of_ne_zero hd
      · exact Nat.pos_of_ne_zero h
  unfold Net.calibratedBops
  have hpa := hpos bsz
  have hpb := hpos bsz'
  generalize d.batch bsz = n at hpa ⊢
  generalize d.batch bsz' = n' at hpb ⊢
  rw [net.traceMinmax_eq ts outs _ { bsz := n } a d.rows ha hpa (by norm_num),
    net.traceMinmax_eq ts outs _ { bsz := n' } b d.rows hb hpb (by norm_num)]
  have hsame := traceStates_same (ts := ts) (o := { bsz := n }) (data := d.rows) (Net.AllS.length ha) (Net.AllS.length hb) hf rfl rfl hall
  have hst : net.traceStates (topLayers ts) { bsz := n' } b d.rows = net.traceStates (topLayers ts) { bsz := n } b d.rows := rfl
  simp only [Bool.false_eq_true, if_false, bind, Except.bind, pure, Except.pure]
  rw [hst, sumBops_congr (fun i => exactBops_congr hsame i)]
  cases sumBops (net.exactBops m fl) (net.traceStates (topLayers ts) { bsz := n } b d.rows) (net.hLayers (topLayers ts)) with
  | error e => rfl
  | ok v => exact ⟨rfl, hsame⟩

/-- **C85**, error branch: an empty array of calibration data makes the callback raise unless a batch size was given. -/
theorem C85_empty_data (net : Net) (ts : List LTree) (outs : List ℕ) (bopsOf : ℕ → List LState → Except String ℚ) (n : ℕ)
    (ss : List LState) :
    net.calibratedBops ts outs bopsOf ⟨false, n, []⟩ none ss = .error "range() arg 3 must not be zero" := by
  unfold Net.calibratedBops Net.traceMinmax
  simp [CalData.batch, CalData.len, bind, Except.bind]

/-- **C85**, batches: without a batch size, data given as a list of arrays is traced in batches of as many samples as the model has
inputs (`len` of the list), an array in one batch; an empty list raises. -/
theorem C85_default_batches (net : Net) (ts : List LTree) (outs : List ℕ) (bopsOf : ℕ → List LState → Except String ℚ) (n : ℕ)
    (rows : List (List (List ℚ))) (ss : List LState) :
    net.calibratedBops ts outs bopsOf ⟨true, n, rows⟩ none ss = net.traceMinmax ts outs bopsOf { bsz := n } ss rows ∧
    net.calibratedBops ts outs bopsOf ⟨false, n, rows⟩ none ss = net.traceMinmax ts outs bopsOf { bsz := rows.length } ss rows ∧
    net.calibratedBops ts outs bopsOf ⟨true, 0, rows⟩ none ss = .error "range() arg 3 must not be zero" := by
  refine ⟨rfl, rfl, ?_⟩
  unfold Net.calibratedBops Net.traceMinmax
  simp [CalData.batch, CalData.len, bind, Except.bind]

-- the network of `Verif/Props/BitsFlow.lean` with the ranges it has, and with the ranges reset: the same BOPs
example : (match exBopsNet.calibratedBops [.layer 0, .layer 1, .layer 2, .layer 3] [4] (exBopsNet.exactBops exBopsModel id)
      ⟨true, 1, [[[1, 3 / 2]], [[-2, 1 / 3]]]⟩ none exBopsStates with
    | .ok (_, .bops b) => b | _ => -1) = 13 ∧
    (match exBopsNet.calibratedBops [.layer 0, .layer 1, .layer 2, .layer 3] [4] (exBopsNet.exactBops exBopsModel id)
      ⟨true, 1, [[[1, 3 / 2]], [[-2, 1 / 3]]]⟩ (some 2)
      (exBopsNet.resetMinmax [.layer 0, .layer 1, .layer 2, .layer 3] exBopsStates) with
    | .ok (_, .bops b) => b | _ => -1) = 13 := by decide +kernel

-- the hypotheses of `C85_history_independent` for that network
theorem exBops_clip : exBopsNet.Clip exBopsStates ∧
    exBopsNet.Clip (exBopsNet.resetMinmax [.layer 0, .layer 1, .layer 2, .layer 3] exBopsStates) := by
  constructor <;> refine ⟨?_, ?_, ?_, ?_, trivial⟩
  all_goals
    intro q hq e
    cases hq
  · show clipByValue (1 : ℚ) (-10) 20 = 1; decide +kernel
  · show clipByValue (2 : ℚ) (-10) 20 = 2; decide +kernel
  · show clipByValue (1 : ℚ) (-10) 20 = 1; decide +kernel
  · show clipByValue (2 : ℚ) (-10) 20 = 2; decide +kernel

example := C85_history_independent exBopsNet [.layer 0, .layer 1, .layer 2, .layer 3] [4] exBopsModel id
  ⟨true, 1, [[[1, 3 / 2]], [[-2, 1 / 3]]]⟩ none (some 2) exBopsStates
  (exBopsNet.resetMinmax [.layer 0, .layer 1, .layer 2, .layer 3] exBopsStates) exBops_clip.1 exBops_clip.2 rfl (by decide)
  (by
    intro i nd ins h _
    have : i < 4 := (List.getElem?_eq_some_iff.mp h).1
    interval_cases i <;> simp)

end HGQ
