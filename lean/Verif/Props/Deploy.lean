import Verif.Lemmas.Deploy
import Verif.Props.DataPath
import Verif.Props.Trace

/-!
C92: from calibration to the deployed model. `trace_minmax`, then `to_proxy_model` with the layers' precisions registered, then the
outputs of the proxy model on the calibration samples.
-/

namespace HGQ

open Spec

/-! ### the graph is in topological order -/

theorem PGraph.ins_of_lt {g h : PGraph} {n : ℕ} (hn : n < g.length) : PGraph.ins (g ++ h) n = g.ins n := by
  simp [PGraph.ins, List.getElem?_append_left hn]

theorem PGraph.ins_of_ge {g h : PGraph} {n : ℕ} (hn : g.length ≤ n) : PGraph.ins (g ++ h) n = PGraph.ins h (n - g.length) := by
  simp [PGraph.ins, List.getElem?_append_right hn]

theorem chain_ins : ∀ (ls : List PLay) (n : ℕ) (ins : List ℕ), (∀ i ∈ ins, i < n) → ∀ j, ∀ i ∈ PGraph.ins (chain n ls ins) j, i < n + j
  | [], n, ins, _, j, i, hi => by simp [chain, PGraph.ins] at hi
  | l :: ls, n, ins, h, 0, i, hi => by
    simp [chain, PGraph.ins] at hi
    simpa using h i hi
  | l :: ls, n, ins, h, j + 1, i, hi => by
    have := chain_ins ls (n + 1) [n] (by simp) j i (by simpa [chain, PGraph.ins] using hi)
    omega

theorem Built.add_wf {b : Built} (hw : b.graph.WF) {ls : List PLay} {ins : List ℕ} (h : ∀ i ∈ ins, b.pos.getD i 0 < b.graph.length) :
    (b.add ls ins).graph.WF := by
  intro n m hm
  unfold Built.add at hm
  simp only at hm
  rcases Nat.lt_or_ge n b.graph.length with hn | hn
  · rw [PGraph.ins_of_lt hn] at hm
    exact hw n m hm
  · rw [PGraph.ins_of_ge hn] at hm
    have := chain_ins ls b.graph.length (ins.map (b.pos.getD · 0)) (by
      intro i hi
      obtain ⟨j, hj, rfl⟩ := List.mem_map.mp hi
      exact h j hj) _ m hm
    omega

theorem build_wf {S : Sat} : ∀ {net : Net} {ss : List QState} {ds : List Desc} {b : Built}, net.Wired b.pos.length → b.graph.WF →
    (∀ i < b.pos.length, b.pos.getD i 0 < b.graph.length) → (∀ nd ins, (nd, ins) ∈ net → ∀ s d, nd.lays s S d ≠ []) →
    (net.build S ss ds b).graph.WF
  | [], _, _, _, _, h, _, _ => h
  | _ :: _, [], _, _, _, h, _, _ => h
  | _ :: _, _ :: _, [], _, _, h, _, _ => h
  | (nd, ins) :: net, s :: ss, d :: ds, b, hw, h, hp, hl => by
    have hl0 := hl nd ins (.head _) s d
    have hpos : 0 < (nd.lays s S d).length := List.length_pos_of_ne_nil hl0
    refine build_wf (b := b.add (nd.lays s S d) ins) (by simpa [Built.add] using hw.2) (Built.add_wf h fun i hi => hp i (hw.1 i hi)) ?_
      fun nd' i' h' => hl nd' i' (.tail _ h')
    intro i hi
    unfold Built.add at hi ⊢
    simp only [List.length_append, List.length_singleton, chain_length] at hi ⊢
    rcases Nat.lt_or_ge i b.pos.length with h' | h'
    · rw [getD_append_left' h']
      have := hp i h'
      omega
    · have : i = b.pos.length := by omega
      subst this
      rw [getD_append_right' (le_refl _)]
      simp
      omega

theorem Node.lays_ne (nd : Node) (s : QState) (S : Sat) (d : Desc) : nd.lays s S d ≠ [] := by
  cases nd <;> simp [Node.lays]
  split_ifs <;> simp

/-- every layer of the proxy model reads layers before it -/
theorem deploy_wf {net : Net} {ss : List QState} {ds : List Desc} {S : Sat} {nIn : ℕ} (hw : net.Wired nIn) :
    (net.deploy ss S ds nIn).graph.WF := by
  refine build_wf (by simpa using hw) ?_ ?_ fun nd _ _ s d => nd.lays_ne s S d
  · intro n m hm
    simp only [PGraph.ins, List.getElem?_map] at hm
    cases h : (List.range nIn)[n]? <;> simp [h] at hm
  · intro i hi
    simp only [List.length_range] at hi
    rw [getD_lt _ _ (by simpa using hi)]
    simpa using hi

/-! ### C92 -/

/-- The proxy model of a traced network after `to_proxy_model(…, skip_precision_reg=False)`, with the precisions registered in the
order of the layers. proxy/convert.py lines 372 and 375-377. -/
def Net.deployed (net : Net) (ss : List QState) (S : Sat) (ds : List Desc) (nIn : ℕ) (off : Option ℤ) : PGraph :=
  let g := (net.deploy ss S ds nIn).graph
  (registerAll off (List.range g.length) ⟨g, []⟩).2.graph

theorem map_range_getD {α : Type} (x : List α) (d : α) : (List.range x.length).map (x.getD · d) = x := by
  apply List.ext_getElem
  · simp
  · intro n h1 h2
    rw [List.getElem_map, List.getElem_range, getD_lt _ _ h2]

theorem sample_holds {x : List (List ℚ)} (hin : ∀ t ∈ x, infKif.HoldsAll t) (n : ℕ) : infKif.HoldsAll (x.getD n []) := by
  intro v hv
  rcases Nat.lt_or_ge n x.length with h | h
  · rw [getD_lt _ _ h] at hv
    exact hin _ (List.getElem_mem h) v hv
  · simp [List.getD, List.getElem?_eq_none h] at hv

theorem PNet.eval_length : ∀ (pm : PNet) (env : List (List ℚ)), (pm.eval env).length = env.length + pm.length
  | [], _ => rfl
  | (f, ins) :: pm, env => by
    rw [PNet.eval, PNet.eval_length pm]
    simp
    omega

theorem toProxy_length {S : Sat} : ∀ {net : Net} {ss : List QState} {pm : PNet}, net.toProxy S ss = .ok pm → pm.length = net.length
  | [], _, pm, h => by cases h; rfl
  | (nd, ins) :: net, [], pm, h => by cases h
  | (nd, ins) :: net, s :: ss, pm, h => by
    unfold Net.toProxy at h
    cases hf : nd.toProxy s S with
    | error e => rw [hf] at h; cases h
    | ok f =>
      cases hr : Net.toProxy S net ss with
      | error e => rw [hf, hr] at h; cases h
      | ok r =>
        rw [hf, hr] at h
        cases h
        simp [toProxy_length hr]

/-- **C92** (partial). Calibrate a model with `trace_minmax`, convert it with `to_proxy_model` and register its precisions. If every
layer of the proxy model is one whose precision derivation loses nothing (`Fits`), then on every calibration sample the layer of the
proxy model that stands for a tensor of the model produces exactly the prediction of the model for that tensor, with the ranges that
were recorded, in either overflow mode. Missing for the full property: `Fits` is needed, as `C92_registration_changes_calibration`
shows. -/
theorem C92_deployed_partial (net : Net) (ss : List QState) (bsz : ℕ) (data : List (List (List ℚ))) (aggressive : Bool)
    (ds : List Desc) (nIn : ℕ) (off : Option ℤ) (hw : net.All Node.WF ss) (hbsz : 0 < bsz) (hne : data ≠ [])
    (hwired : net.Wired nIn) (hdesc : net.Described ds) :
    ∃ ss' preds, net.trace ss bsz data = .ok (ss', preds) ∧
      (net.All Bounded ss' → (net.deploy ss' (proxySat aggressive) ds nIn).graph.Fits →
        ∀ x ∈ data, x.length = nIn → (∀ t ∈ x, infKif.HoldsAll t) →
          ∃ out, net.predict ss' x = .ok out ∧ out.length = nIn + net.length ∧
            ∀ i < out.length,
              ((net.deployed ss' (proxySat aggressive) ds nIn off).eval (x.getD · []))[
                (net.deploy ss' (proxySat aggressive) ds nIn).pos.getD i 0]? = some (out.getD i [])) := by
  obtain ⟨ss', preds, ht, -, hC⟩ := C26_bit_accurate net ss bsz data aggressive hw hbsz hne
  refine ⟨ss', preds, ht, fun hb hf x hx hlen hin => ?_⟩
  obtain ⟨pm, hpm, -, hp⟩ := hC hb
  have hcomp := deploy_computes hpm hwired hdesc (x.getD · [])
  rw [← hlen, map_range_getD, hlen] at hcomp
  refine ⟨_, hp x hx, ?_, fun i hi => ?_⟩
  · rw [PNet.eval_length, toProxy_length hpm, hlen]
  · unfold Net.deployed
    simp only
    rw [C89_registration_keeps_function_partial (deploy_wf hwired) hf off _ _ (sample_holds hin)]
    have h1 := hcomp.val i hi
    have h2 := hcomp.lt i hi
    unfold PGraph.value at h1
    rw [getD_lt _ _ (by rw [PGraph.eval_length]; exact h2)] at h1
    rw [List.getElem?_eq_getElem (by rw [PGraph.eval_length]; exact h2), h1]

/-- **C92** (partial). The same for the data path that stores the output of every layer in the type registered for it, when those
types account for every value (`DataPath`): an output of the model is computed exactly on every calibration sample. -/
theorem C92_data_path_partial (net : Net) (ss : List QState) (bsz : ℕ) (data : List (List (List ℚ))) (aggressive : Bool)
    (ds : List Desc) (nIn : ℕ) (off : Option ℤ) (hw : net.All Node.WF ss) (hbsz : 0 < bsz) (hne : data ≠ [])
    (hwired : net.Wired nIn) (hdesc : net.Described ds) :
    ∃ ss' preds, net.trace ss bsz data = .ok (ss', preds) ∧
      (net.All Bounded ss' → ∀ r : ℕ → Option KifRS, (net.deploy ss' (proxySat aggressive) ds nIn).graph.Fits →
        Registered (net.deploy ss' (proxySat aggressive) ds nIn).graph r →
        (net.deploy ss' (proxySat aggressive) ds nIn).graph.DataPath r →
        ∀ x ∈ data, x.length = nIn → (∀ t ∈ x, infKif.HoldsAll t) →
          ∃ out, net.predict ss' x = .ok out ∧
            ∀ i < out.length,
              (∀ m, (net.deploy ss' (proxySat aggressive) ds nIn).pos.getD i 0 ∉
                (net.deploy ss' (proxySat aggressive) ds nIn).graph.ins m) →
              ((net.deployed ss' (proxySat aggressive) ds nIn off).evalStored r (x.getD · []))[
                (net.deploy ss' (proxySat aggressive) ds nIn).pos.getD i 0]? = some (out.getD i [])) := by
  obtain ⟨ss', preds, ht, -, hC⟩ := C26_bit_accurate net ss bsz data aggressive hw hbsz hne
  refine ⟨ss', preds, ht, fun hb r hf hreg hdp x hx hlen hin => ?_⟩
  obtain ⟨pm, hpm, -, hp⟩ := hC hb
  have hcomp := deploy_computes hpm hwired hdesc (x.getD · [])
  rw [← hlen, map_range_getD, hlen] at hcomp
  refine ⟨_, hp x hx, fun i hi hout => ?_⟩
  have h1 := hcomp.val i hi
  have h2 := hcomp.lt i hi
  unfold Net.deployed
  simp only
  rw [C91_data_path_exact_partial (deploy_wf hwired) hf hreg hdp off _ _ (sample_holds hin) _ h2 hout]
  unfold PGraph.value at h1
  rw [getD_lt _ _ (by rw [PGraph.eval_length]; exact h2)] at h1
  rw [List.getElem?_eq_getElem (by rw [PGraph.eval_length]; exact h2), h1]

/-! ### registration can change the outputs on the calibration data -/

/-- two `HQuantize` layers on two values: three fractional bits shared, then zero and three fractional bits -/
def depConf : QConf := ⟨0, true, some (-10, 20), fun _ => 1, 7 / 10⟩

def depNet : Net := [(.quantize ⟨depConf, [2], [1]⟩, [0]), (.quantize ⟨depConf, [2], [2]⟩, [1])]

def depStates : List QState := [⟨fun _ => 3, fun _ => ⊤, fun _ => ⊥⟩, ⟨fun e => if e = 0 then 0 else 3, fun _ => ⊤, fun _ => ⊥⟩]

def depDescs : List Desc := [⟨.input, 0, 0⟩, ⟨.input, 0, 0⟩]

/-- **C92**, what fails: the second quantizer rounds 7/8 up to 1, which is outside the range of the first; registration takes the
integer bits it needs for that away, and the output 1 becomes 0 when overflow wraps and 1/2 when it saturates. -/
theorem C92_registration_changes_calibration :
    ∃ ss' preds, depNet.trace depStates 1 [[[(7 / 8 : ℚ), 7 / 8]]] = .ok (ss', preds) ∧
      depNet.predict ss' [[(7 / 8 : ℚ), 7 / 8]] = .ok [[(7 / 8 : ℚ), 7 / 8], [7 / 8, 7 / 8], [1, 7 / 8]] ∧
      (∀ S ∈ [Sat.WRAP, Sat.SAT], (depNet.deploy ss' S depDescs 1).pos = [0, 1, 2] ∧
        (depNet.deploy ss' S depDescs 1).graph.eval (fun _ => [7 / 8, 7 / 8]) = [[(7 / 8 : ℚ), 7 / 8], [7 / 8, 7 / 8], [1, 7 / 8]]) ∧
      (depNet.deployed ss' .WRAP depDescs 1 none).eval (fun _ => [7 / 8, 7 / 8]) = [[(7 / 8 : ℚ), 7 / 8], [7 / 8, 7 / 8], [0, 7 / 8]] ∧
      (depNet.deployed ss' .SAT depDescs 1 none).eval (fun _ => [7 / 8, 7 / 8]) = [[(7 / 8 : ℚ), 7 / 8], [7 / 8, 7 / 8], [1 / 2, 7 / 8]] := by
  have h : (match depNet.trace depStates 1 [[[(7 / 8 : ℚ), 7 / 8]]] with
    | .ok (ss', _) =>
      (match depNet.predict ss' [[(7 / 8 : ℚ), 7 / 8]] with
        | .ok o => decide (o = [[(7 / 8 : ℚ), 7 / 8], [7 / 8, 7 / 8], [1, 7 / 8]])
        | .error _ => false) &&
      decide ((∀ S ∈ [Sat.WRAP, Sat.SAT], (depNet.deploy ss' S depDescs 1).pos = [0, 1, 2] ∧
        (depNet.deploy ss' S depDescs 1).graph.eval (fun _ => [7 / 8, 7 / 8]) = [[(7 / 8 : ℚ), 7 / 8], [7 / 8, 7 / 8], [1, 7 / 8]]) ∧
      (depNet.deployed ss' .WRAP depDescs 1 none).eval (fun _ => [7 / 8, 7 / 8]) = [[(7 / 8 : ℚ), 7 / 8], [7 / 8, 7 / 8], [0, 7 / 8]] ∧
      (depNet.deployed ss' .SAT depDescs 1 none).eval (fun _ => [7 / 8, 7 / 8]) = [[(7 / 8 : ℚ), 7 / 8], [7 / 8, 7 / 8], [1 / 2, 7 / 8]])
    | .error _ => false) = true := by decide +kernel
  cases ht : depNet.trace depStates 1 [[[(7 / 8 : ℚ), 7 / 8]]] with
  | error e => rw [ht] at h; cases h
  | ok r =>
    obtain ⟨ss', preds⟩ := r
    rw [ht] at h
    simp only [Bool.and_eq_true, decide_eq_true_eq] at h
    refine ⟨ss', preds, rfl, ?_, h.2⟩
    have h1 := h.1
    split at h1
    · rename_i o ho
      rw [ho, of_decide_eq_true h1]
    · cases h1

end HGQ
