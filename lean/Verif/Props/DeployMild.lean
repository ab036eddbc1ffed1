import Verif.Lemmas.DeployRec2

/-!
C92, with conditions on widths in place of conditions on recorded ranges.
-/

namespace HGQ

open Spec

/-- the layers of the proxy model that are activation quantizers made from recorded ranges that were not adjusted -/
def Net.recordedAt (net : Net) (ss : List QState) (S : Sat) (ds : List Desc) (nIn : ℕ) (n : ℕ) : Prop :=
  ∃ j, net.recorded j ∧ n = (net.deploy ss S ds nIn).pos.getD (nIn + j) 0

/-- **C92**, ranges recorded by `trace_minmax`: every activation quantizer of the proxy model (softmax, sigmoid and tanh layers apart)
covers no more than its inputs on the calibration samples reached. -/
theorem deploy_recorded {net : Net} {ss ss' : List QState} {bsz : ℕ} {data preds : List (List (List ℚ))} (aggressive : Bool)
    {ds : List Desc} {nIn : ℕ} (hw : net.All Node.WF ss) (hbsz : 0 < bsz) (hne : data ≠ []) (hwired : net.Wired nIn)
    (hdesc : net.Described ds) (hlen : ∀ x ∈ data, x.length = nIn) (ht : net.trace ss bsz data = .ok (ss', preds))
    (hb : net.All Bounded ss') : ∀ n, net.recordedAt ss' (proxySat aggressive) ds nIn n →
      (net.deploy ss' (proxySat aggressive) ds nIn).graph.RecordedAt (proxySat aggressive) (data.map fun x n => x.getD n []) n := by
  obtain ⟨ss'', h1, h2, h3, h4, h5⟩ := trace_spec net ss bsz data hw hbsz
  rw [ht] at h1
  simp only [Except.ok.injEq, Prod.mk.injEq] at h1
  obtain ⟨rfl, -⟩ := h1
  obtain ⟨x0, hx0⟩ := List.exists_mem_of_ne_nil data hne
  have htr : net.All Node.AllTraced ss' := traced_all h3 h4 hb (h5 x0 hx0)
  have hE : ∀ x ∈ data, (List.range nIn).map (fun n => x.getD n []) = x := by
    intro x hx; rw [← hlen x hx, map_range_getD]
  rintro n ⟨j, hj, rfl⟩
  refine build_recorded aggressive _ (by simpa using hne) (E := fun xs => (List.range nIn).map xs) hwired hdesc h3 htr ?_ ?_ ?_ ?_ ?_ j hj
  · intro xs _; simp
  · intro xs _; exact inputs_computes nIn xs
  · have := trace_attained hw hbsz ht
    rw [List.map_map]
    have e : data.map ((fun xs : ℕ → List ℚ => (List.range nIn).map xs) ∘ fun x n => x.getD n []) = data := by
      conv_rhs => rw [← List.map_id data]
      apply List.map_congr_left
      intro x hx
      exact hE x hx
    rw [e]
    exact this
  · intro xs hxs
    obtain ⟨x, hx, rfl⟩ := List.mem_map.mp hxs
    rw [hE x hx]
    exact h5 x hx
  · intro n m hm
    simp only [PGraph.ins, List.getElem?_map] at hm
    cases h : (List.range nIn)[n]? <;> simp [h] at hm

/-- **C92** (partial). As `C92_deployed_partial`, but for the activation quantizers made from ranges that `trace_minmax` recorded it is
enough that their fractional widths are mild with respect to the inferred type in front (`FPQ.Mild`): the recorded range cannot leave
that type, so registration keeps the bits the range needs. In the conservative mode (overflow saturates) registration may change what
the model does outside the recorded ranges, but not on the calibration samples. Missing for the full property: the other layers still
have to fit, and rounding up to the next power of two has to be excluded (`C92_registration_changes_calibration`). -/
theorem C92_mild_partial (net : Net) (ss : List QState) (bsz : ℕ) (data : List (List (List ℚ))) (aggressive : Bool)
    (ds : List Desc) (nIn : ℕ) (off : Option ℤ) (hw : net.All Node.WF ss) (hbsz : 0 < bsz) (hne : data ≠ [])
    (hwired : net.Wired nIn) (hdesc : net.Described ds) (hdata : ∀ x ∈ data, x.length = nIn ∧ ∀ t ∈ x, infKif.HoldsAll t) :
    ∃ ss' preds, net.trace ss bsz data = .ok (ss', preds) ∧
      (net.All Bounded ss' →
        (net.deploy ss' (proxySat aggressive) ds nIn).graph.MildFits (net.recordedAt ss' (proxySat aggressive) ds nIn) →
        ∀ x ∈ data, ∃ out, net.predict ss' x = .ok out ∧ out.length = nIn + net.length ∧
          ∀ i < out.length,
            ((net.deployed ss' (proxySat aggressive) ds nIn off).eval (x.getD · []))[
              (net.deploy ss' (proxySat aggressive) ds nIn).pos.getD i 0]? = some (out.getD i [])) := by
  obtain ⟨ss', preds, ht, -, hC⟩ := C26_bit_accurate net ss bsz data aggressive hw hbsz hne
  refine ⟨ss', preds, ht, fun hb hm x hx => ?_⟩
  obtain ⟨pm, hpm, -, hp⟩ := hC hb
  have hrec := deploy_recorded aggressive hw hbsz hne hwired hdesc (fun x hx => (hdata x hx).1) ht hb
  have hD : ∀ xs ∈ data.map fun x n => x.getD n [], ∀ n, infKif.HoldsAll (xs n) := by
    intro xs hxs n
    obtain ⟨x', hx', rfl⟩ := List.mem_map.mp hxs
    exact sample_holds (hdata x' hx').2 n
  have hS : proxySat aggressive = .WRAP ∨ proxySat aggressive = .SAT := by unfold proxySat; split_ifs <;> simp
  have hkeep := keeps_of_mild (deploy_wf hwired) hD hS hrec hm
  have hlen := (hdata x hx).1
  have hcomp := deploy_computes hpm hwired hdesc (x.getD · [])
  rw [← hlen, map_range_getD, hlen] at hcomp
  refine ⟨_, hp x hx, ?_, fun i hi => ?_⟩
  · rw [PNet.eval_length, toProxy_length hpm, hlen]
  · unfold Net.deployed
    simp only
    rw [registration_keeps_samples (deploy_wf hwired) hD hkeep off _ (List.mem_map.mpr ⟨x, hx, rfl⟩)]
    have h1 := hcomp.val i hi
    have h2 := hcomp.lt i hi
    unfold PGraph.value at h1
    rw [getD_lt _ _ (by rw [PGraph.eval_length]; exact h2)] at h1
    rw [List.getElem?_eq_getElem (by rw [PGraph.eval_length]; exact h2), h1]

/-- **C92** (partial), aggressive mode (overflow wraps): under the same conditions registration changes nothing on any input, inside or
outside the recorded ranges. -/
theorem C92_aggressive_all_inputs_partial (net : Net) (ss ss' : List QState) (bsz : ℕ) (data preds : List (List (List ℚ)))
    (ds : List Desc) (nIn : ℕ) (off : Option ℤ) (hw : net.All Node.WF ss) (hbsz : 0 < bsz) (hne : data ≠ [])
    (hwired : net.Wired nIn) (hdesc : net.Described ds) (hdata : ∀ x ∈ data, x.length = nIn ∧ ∀ t ∈ x, infKif.HoldsAll t)
    (ht : net.trace ss bsz data = .ok (ss', preds)) (hb : net.All Bounded ss')
    (hm : (net.deploy ss' (proxySat true) ds nIn).graph.MildFits (net.recordedAt ss' (proxySat true) ds nIn))
    (xs : ℕ → List ℚ) (hxs : ∀ n, infKif.HoldsAll (xs n)) :
    (net.deployed ss' (proxySat true) ds nIn off).eval xs = (net.deploy ss' (proxySat true) ds nIn).graph.eval xs := by
  have hrec := deploy_recorded true hw hbsz hne hwired hdesc (fun x hx => (hdata x hx).1) ht hb
  refine C89_registration_keeps_function_partial (deploy_wf hwired) (fits_of_mild (deploy_wf hwired) ?_ hrec hm) off _ xs hxs
  intro xs hxs n
  obtain ⟨x', hx', rfl⟩ := List.mem_map.mp hxs
  exact sample_holds (hdata x' hx').2 n

/-! ### checking the conditions on concrete models -/

instance (q : FPQ) (t : KIF) : Decidable (q.ElemsFit t) := by unfold FPQ.ElemsFit; infer_instance
instance (q : FPQ) : Decidable q.AllPruned := by unfold FPQ.AllPruned; infer_instance
instance (r : ℚ → ℚ) (s0 i0 f0 s i f : ℤ) : Decidable (WrapKeeps r s0 i0 f0 s i f) := by unfold WrapKeeps; infer_instance
instance (r : ℚ → ℚ) (s0 i0 f0 s i f : ℤ) : Decidable (SatKeeps r s0 i0 f0 s i f) := by unfold SatKeeps; infer_instance
instance (q : FPQ) (t : KIF) : Decidable (q.Exact t) := by unfold FPQ.Exact; infer_instance

instance (q : FPQ) (t : KIF) : Decidable (q.Fits t) := by unfold FPQ.Fits; infer_instance
instance (q : FPQ) (t : KIF) : Decidable (q.Mild t) := by unfold FPQ.Mild; infer_instance

/-- on the grid of `f` fractional bits -/
def gridB (f : ℤ) (v : ℚ) : Bool := (v * p2 f).den = 1

theorem gridB_sound {f : ℤ} {v : ℚ} (h : gridB f v = true) : ∃ m : ℤ, v = m * (2 : ℚ) ^ (-f) := by
  unfold gridB at h
  have h := of_decide_eq_true h
  refine ⟨(v * p2 f).num, ?_⟩
  have : ((v * p2 f).num : ℚ) = v * p2 f := by rw [← Rat.den_eq_one_iff]; exact h
  rw [this]
  change v = v * p2 f * p2 (-f)
  rw [mul_assoc, p2_mul_neg, mul_one]

/-- a check for the layers other than activations -/
def PLay.mildB (l : PLay) (ts : List KIF) (rcd : Bool) : Bool :=
  let t := ts.headD infKif
  match l with
  | .input | .add _ => true
  | .quant q o s => decide (Compat o s) && decide (q.elems.length = prodL s) && (decide (q.Fits t) || (rcd && decide (q.Mild t)))
  | .linear kernel bias div n taps chan =>
      kernel.all (gridB 32) && bias.all (gridB (linearKif t kernel bias div).f) &&
      (List.range n).all fun p => (taps p).all (fun tap => decide (tap.2 < kernel.length)) &&
        decide (t.mag * ((taps p).map fun tap => |at0 kernel tap.2|).sum + |at0 bias (chan p)| < (2 : ℚ) ^ (linearKif t kernel bias div).i)
  | _ => false

theorem PLay.mildB_sound {l : PLay} {ts : List KIF} {rcd : Bool} (h : l.mildB ts rcd = true) :
    l.Fits ts ∨ rcd = true ∧ ∃ q o s, l = .quant q o s ∧ q.Mild (ts.headD infKif) := by
  cases l with
  | input => exact .inl trivial
  | add n => exact .inl trivial
  | quant q o s =>
    simp only [PLay.mildB, Bool.and_eq_true, Bool.or_eq_true, decide_eq_true_eq] at h
    rcases h.2 with h' | h'
    · exact .inl ⟨h.1.1, h.1.2, h'⟩
    · exact .inr ⟨h'.1, q, o, s, rfl, h'.2⟩
  | linear kernel bias div n taps chan =>
    simp only [PLay.mildB, Bool.and_eq_true, List.all_eq_true, decide_eq_true_eq, List.mem_range] at h
    exact .inl ⟨fun w hw => gridB_sound (h.1.1 w hw), fun b hb => gridB_sound (h.1.2 b hb), h.2⟩
  | _ => simp [PLay.mildB] at h

/-- ReLU on at most 20 bits -/
theorem relu_fits {b : Bool} {ts : List KIF} (h : ts ≠ [] ∧ (kifMax ts).k + (kifMax ts).i + (kifMax ts).f ≤ 20 ∧ (kifMax ts).f ≤ 32) :
    (PLay.act b .other relu).Fits ts := by
  refine ⟨h.1, h.2.1, fun x hx => ?_⟩
  have hg : ∃ n : ℤ, x = n * (2 : ℚ) ^ (-32 : ℤ) := by
    rcases hx with ⟨hn, -, -⟩ | rfl | rfl
    · exact grid_mono h.2.2 hn
    · exact ⟨0, by norm_num⟩
    · exact ⟨2 ^ 32, by norm_num⟩
  unfold relu
  rcases max_choice x 0 with e | e <;> rw [e]
  · exact hg
  · exact ⟨0, by norm_num⟩

/-! ### a concrete model -/

/-- `HQuantize` (rounding), `HDense` with ReLU (floor), and a residual `HAdd` (floor), one bitwidth per feature -/
def mildAct (st : ℤ) : QSite := ⟨⟨st, true, some (-10, 20), fun _ => 1, 7 / 10⟩, [2], [2]⟩

def mildNet : Net := [(.quantize (mildAct 0), [0]), (.linear (exDense 3 [2] true), [1]), (.add (mildAct 3), [1, 2])]

def mildStates : List QState := [exState, exState, exState]

def mildDescs : List Desc := [⟨.input, 0, 0⟩, ⟨.input, 4, 2⟩, ⟨.input, 0, 0⟩]

def mildData : List (List (List ℚ)) := [[[1, 3 / 8]], [[-2, 5 / 4]]]

def mildTraced : List QState := match mildNet.trace mildStates 1 mildData with
  | .ok (ss, _) => ss
  | .error _ => []

theorem mild_wf : mildNet.All Node.WF mildStates := by
  have c2 : Compat [2] [2] := by decide
  have hcl : ∀ e, (mildAct 0).conf.clip (exState.fbw e) = exState.fbw e := fun e => (exDense_wf 0 false).clip e
  have hfb : ∀ e, -32 ≤ exState.fbw e := by
    intro e
    show (-32 : ℚ) ≤ if e = 0 then _ else _
    split_ifs <;> norm_num
  refine ⟨⟨?_, ?_, ?_, ?_, ?_⟩, ⟨?_, ?_, ?_, ?_, ?_⟩, ⟨?_, ?_, ?_, ?_, ?_⟩, trivial⟩
  all_goals first
    | (intro _ _ _ h; cases h)
    | (intro q hq; cases hq; done)
    | (intro q hq; cases hq; first | exact c2 | exact hcl | exact hfb | exact .inl rfl)

theorem mild_wired : mildNet.Wired 1 := ⟨by decide, by decide, by decide, trivial⟩

theorem mild_described : mildNet.Described mildDescs := by
  have c2 : Compat [2] [2] := by decide
  refine ⟨⟨?_, ?_, ?_, ?_, ?_⟩, ⟨?_, ?_, ?_, ?_, ?_⟩, ⟨?_, ?_, ?_, ?_, ?_⟩, trivial⟩
  all_goals first
    | (intro _ h; cases h; done)
    | (intro q hq; cases hq; exact c2)
    | (intro _ _ _ h; cases h; done)
    | skip
  · intro L h p hp t ht
    cases h
    have hp : p < 2 := hp
    simp only [exDense, List.mem_cons, List.not_mem_nil, or_false] at ht
    rcases ht with rfl | rfl <;> change _ < 4 <;> simp only <;> omega
  · intro L h _ p hp
    cases h
    have hp : p < 2 := hp
    change (exDense 3 [2] true).chan p < 2
    interval_cases p <;> decide +kernel

theorem mild_trace : ∃ preds, mildNet.trace mildStates 1 mildData = .ok (mildTraced, preds) := by
  unfold mildTraced
  obtain ⟨ss', h1, -⟩ := trace_spec mildNet mildStates 1 mildData mild_wf (by decide)
  rw [h1]
  exact ⟨_, rfl⟩

/-- ranges attained on samples on which the quantized values are bounded are bounded -/
theorem bounded_of_attained {nd : Node} {s : QState} {insB : List (List (List ℚ))} (ha : nd.Attained s insB) {q : QSite} (hq : nd.site = some q)
    (h : ∀ ins ∈ insB, ∀ p < prodL q.outShape,
      -(2 : ℚ) ^ (32 : ℤ) ≤ nd.quantAt q s.fbw ins p ∧ nd.quantAt q s.fbw ins p < (2 : ℚ) ^ (32 : ℤ)) : Bounded nd s := by
  intro e
  obtain ⟨a1, a2⟩ := ha q hq e
  constructor
  · intro v hv
    obtain ⟨ins, hi, p, hp, -, rfl⟩ := a1 v hv
    exact (h ins hi p hp).1
  · intro v hv
    obtain ⟨ins, hi, p, hp, -, rfl⟩ := a2 v hv
    exact (h ins hi p hp).2

theorem mild_bounded : mildNet.All Bounded mildTraced := by
  obtain ⟨preds, ht⟩ := mild_trace
  have ha := trace_attained mild_wf (by decide) ht
  obtain ⟨s0, s1, s2, hs⟩ : ∃ s0 s1 s2, mildTraced = [s0, s1, s2] := by
    have h : mildTraced.length = 3 := by decide +kernel
    match hm : mildTraced, h with
    | [a, b, c], _ => exact ⟨a, b, c, rfl⟩
  have hf : mildTraced.map QState.fbw = [exState.fbw, exState.fbw, exState.fbw] := by
    obtain ⟨ss', h1, h2, -⟩ := trace_spec mildNet mildStates 1 mildData mild_wf (by decide)
    rw [ht] at h1
    simp only [Except.ok.injEq, Prod.mk.injEq] at h1
    rw [h1.1, h2]; rfl
  rw [hs] at ha hf ⊢
  simp only [List.map_cons, List.map_nil, List.cons.injEq, and_true] at hf
  obtain ⟨f0, f1, f2⟩ := hf
  obtain ⟨a0, a1, a2, -⟩ := ha
  rw [f0] at a1 a2
  rw [f1] at a2
  refine ⟨bounded_of_attained (a0 rfl) rfl ?_, bounded_of_attained (a1 rfl) rfl ?_, bounded_of_attained (a2 rfl) rfl ?_, trivial⟩
  · rw [f0]; decide +kernel
  · rw [f1]; decide +kernel
  · rw [f2]; decide +kernel

theorem mild_fits (aggressive : Bool) : (mildNet.deploy mildTraced (proxySat aggressive) mildDescs 1).graph.MildFits
    (mildNet.recordedAt mildTraced (proxySat aggressive) mildDescs 1) := by
  have hpos : (mildNet.deploy mildTraced (proxySat aggressive) mildDescs 1).pos = [0, 1, 5, 7] := by clear * - aggressive; revert aggressive; decide +kernel
  have hrec : ∀ n, n = 1 ∨ n = 5 ∨ n = 7 → mildNet.recordedAt mildTraced (proxySat aggressive) mildDescs 1 n := by
    rintro n (rfl | rfl | rfl)
    · exact ⟨0, ⟨_, _, rfl, by simp [Node.site], rfl⟩, by rw [hpos]; rfl⟩
    · exact ⟨1, ⟨_, _, rfl, by simp [Node.site], rfl⟩, by rw [hpos]; rfl⟩
    · exact ⟨2, ⟨_, _, rfl, by simp [Node.site], rfl⟩, by rw [hpos]; rfl⟩
  have hchk : ∀ n < 8, n ≠ 4 → (match (mildNet.deploy mildTraced (proxySat aggressive) mildDescs 1).graph.lay n with
      | some l => l.mildB ((mildNet.deploy mildTraced (proxySat aggressive) mildDescs 1).graph.inTypes n) (n == 1 || n == 5 || n == 7)
      | none => false) = true := by clear * - aggressive; revert aggressive; decide +kernel
  have hlen : (mildNet.deploy mildTraced (proxySat aggressive) mildDescs 1).graph.length = 8 := by clear * - aggressive; revert aggressive; decide +kernel
  intro n l hl
  have hn : n < 8 := by
    by_contra hc
    push Not at hc
    rw [PGraph.lay, List.getElem?_eq_none (by omega)] at hl
    simp at hl
  by_cases h4 : n = 4
  · subst h4
    obtain ⟨s0, s1, s2, hs⟩ : ∃ s0 s1 s2, mildTraced = [s0, s1, s2] := by
      have h : mildTraced.length = 3 := by decide +kernel
      match hm : mildTraced, h with
      | [a, b, c], _ => exact ⟨a, b, c, rfl⟩
    have : some l = some (PLay.act false .other relu) := by
      rw [← hl, hs]; rfl
    cases this
    exact .inl (relu_fits (by clear * - aggressive; revert aggressive; decide +kernel))
  · have := hchk n hn h4
    rw [hl] at this
    rcases PLay.mildB_sound this with h | ⟨h1, h2⟩
    · exact .inl h
    · refine .inr ⟨hrec n ?_, h2⟩
      simpa [or_assoc] using h1

theorem mild_data : ∀ x ∈ mildData, x.length = 1 ∧ ∀ t ∈ x, infKif.HoldsAll t := by
  have h : ∀ x ∈ mildData, x.length = 1 ∧ ∀ t ∈ x, ∀ v ∈ t, infKif.holdsB v = true := by decide +kernel
  exact fun x hx => ⟨(h x hx).1, fun t ht v hv => KIF.holds_of_holdsB ((h x hx).2 t ht v hv)⟩

-- `C92_mild_partial` applies to this model in both modes
example (aggressive : Bool) : ∃ ss' preds, mildNet.trace mildStates 1 mildData = .ok (ss', preds) ∧
    ∀ x ∈ mildData, ∃ out, mildNet.predict ss' x = .ok out ∧ out.length = 4 ∧
      ∀ i < out.length, ((mildNet.deployed ss' (proxySat aggressive) mildDescs 1 (some 3)).eval (x.getD · []))[
        (mildNet.deploy ss' (proxySat aggressive) mildDescs 1).pos.getD i 0]? = some (out.getD i []) := by
  obtain ⟨ss', preds, ht, h⟩ := C92_mild_partial mildNet mildStates 1 mildData aggressive mildDescs 1 (some 3) mild_wf (by decide)
    (by decide) mild_wired mild_described mild_data
  obtain ⟨preds', ht'⟩ := mild_trace
  rw [ht'] at ht
  simp only [Except.ok.injEq, Prod.mk.injEq] at ht
  obtain ⟨rfl, rfl⟩ := ht
  exact ⟨_, _, ht', h mild_bounded (mild_fits aggressive)⟩

-- so does `C92_aggressive_all_inputs_partial`
example (xs : ℕ → List ℚ) (hxs : ∀ n, infKif.HoldsAll (xs n)) :
    (mildNet.deployed mildTraced .WRAP mildDescs 1 none).eval xs = (mildNet.deploy mildTraced .WRAP mildDescs 1).graph.eval xs := by
  obtain ⟨preds', ht'⟩ := mild_trace
  exact C92_aggressive_all_inputs_partial mildNet mildStates mildTraced 1 mildData preds' mildDescs 1 none mild_wf (by decide)
    (by decide) mild_wired mild_described mild_data ht' mild_bounded (mild_fits true) xs hxs

-- the quantizers behind the three layers are mild
example : ∀ n ∈ [1, 5, 7], (match (mildNet.deploy mildTraced .WRAP mildDescs 1).graph.lay n with
    | some (.quant q _ _) => decide (q.Mild (((mildNet.deploy mildTraced .WRAP mildDescs 1).graph.inTypes n).headD infKif))
    | _ => false) = true := by decide +kernel

/-! ### outside the recorded ranges -/

/-- two `HQuantize` layers on two values: no fractional bits and one range shared, then two fractional bits and one range each -/
def outNet : Net := [(.quantize ⟨depConf, [2], [1]⟩, [0]), (.quantize ⟨depConf, [2], [2]⟩, [1])]

def outStates : List QState := [⟨fun _ => 0, fun _ => ⊤, fun _ => ⊥⟩, ⟨fun _ => 2, fun _ => ⊤, fun _ => ⊥⟩]

/-- **C92**, why the conservative mode is about the calibration samples only: calibrated on (3, 7), all widths mild, registration changes
the value at which the second quantizer saturates on the input (7, 7), from 15/4 to 7/2. -/
theorem C92_conservative_outside_changes :
    ∃ ss' preds, outNet.trace outStates 1 [[[(3 : ℚ), 7]]] = .ok (ss', preds) ∧
      (∀ n ∈ [1, 2], ∃ q o s, (outNet.deploy ss' .SAT depDescs 1).graph.lay n = some (.quant q o s) ∧
        q.Mild (((outNet.deploy ss' .SAT depDescs 1).graph.inTypes n).headD infKif)) ∧
      (outNet.deploy ss' .SAT depDescs 1).graph.eval (fun _ => [7, 7]) = [[(7 : ℚ), 7], [7, 7], [15 / 4, 7]] ∧
      (outNet.deployed ss' .SAT depDescs 1 none).eval (fun _ => [7, 7]) = [[(7 : ℚ), 7], [7, 7], [7 / 2, 7]] := by
  have h : (match outNet.trace outStates 1 [[[(3 : ℚ), 7]]] with
    | .ok (ss', _) =>
      (List.all [1, 2] fun n => match (outNet.deploy ss' .SAT depDescs 1).graph.lay n with
        | some (.quant q _ _) => decide (q.Mild (((outNet.deploy ss' .SAT depDescs 1).graph.inTypes n).headD infKif))
        | _ => false) &&
      decide ((outNet.deploy ss' .SAT depDescs 1).graph.eval (fun _ => [7, 7]) = [[(7 : ℚ), 7], [7, 7], [15 / 4, 7]] ∧
        (outNet.deployed ss' .SAT depDescs 1 none).eval (fun _ => [7, 7]) = [[(7 : ℚ), 7], [7, 7], [7 / 2, 7]])
    | .error _ => false) = true := by decide +kernel
  cases ht : outNet.trace outStates 1 [[[(3 : ℚ), 7]]] with
  | error e => rw [ht] at h; cases h
  | ok r =>
    obtain ⟨ss', preds⟩ := r
    rw [ht] at h
    simp only [Bool.and_eq_true, decide_eq_true_eq, List.all_eq_true] at h
    refine ⟨ss', preds, rfl, fun n hn => ?_, h.2⟩
    have h1 := h.1 n hn
    split at h1
    · rename_i q o s hl
      exact ⟨q, o, s, hl, of_decide_eq_true h1⟩
    · cases h1

end HGQ
