import Verif.Model.Net

/-!
Model of `/repo/src/HGQ/bops/bops.py`: `trace_minmax` with all its options, on models with nested models, and the
callbacks `ResetMinMax` and `FreeBOPs`.

A model is a network (all layer calls, those of nested models included, in topological order: calling a nested model runs
its layers) and a tree saying which layers `model.layers` lists. Layers are called once (several calls: `Verif/Model/Shared.lean`).
-/

namespace HGQ

/-- mutable state of a layer: its activation quantizer and `record_minmax` (base.py line 50) -/
structure LState where
  q : QState
  recording : Bool

/-- an entry of `model.layers`: a layer (its position in the network) or a nested model with its own `layers`.
`model.layers`, bops/bops.py lines 19-24, 35-39, 59-62. -/
inductive LTree
  | layer (i : ℕ)
  | model (layers : List LTree)

/-- the entries of `model.layers` that are layers, not models. bops/bops.py lines 59, 77, 91, 116. -/
def topLayers : List LTree → List ℕ
  | [] => []
  | .layer i :: ts => i :: topLayers ts
  | .model _ :: ts => topLayers ts

/-- `model(batch, training=False)` with the layers' own recording flags, base.py lines 145-155:
`record_minmax = training or self.record_minmax` -/
def Net.run : Net → List LState → List (List (List ℚ)) → Except String (List LState × List (List (List ℚ)))
  | [], _, envs => .ok ([], envs)
  | (nd, ins) :: rest, s :: ss, envs => do
    let (q', outs) ← nd.call s.q s.recording (envs.map (gather · ins))
    let (ss', envs') ← Net.run rest ss (List.zipWith (fun env o => env ++ [o]) envs outs)
    return (⟨q', s.recording⟩ :: ss', envs')
  | _ :: _, [], _ => .error "missing state"

/-- the batch loop, bops.py lines 64-71; the results of all batches -/
def Net.runBatches (net : Net) : List LState → List (List (List (List ℚ))) →
    Except String (List LState × List (List (List (List ℚ))))
  | ss, [] => .ok (ss, [])
  | ss, b :: bs => do
    let (ss', r) ← net.run ss b
    let (ss'', rs) ← Net.runBatches net ss' bs
    return (ss'', r :: rs)

/-- `for layer in model.layers: if isinstance(layer, HLayerBase): ...`, where the body changes only the state of `layer`.
`I`: the layers listed; `k`: the position of the first node. Layers with a quantizer are the `HLayerBase`s.
bops/bops.py lines 59-62, 77-89, 91-110. -/
def Net.forLayersFrom (I : List ℕ) (f : Node → LState → LState) : ℕ → Net → List LState → List LState
  | k, (nd, _) :: net, s :: ss =>
    (if k ∈ I ∧ nd.site.isSome then f nd s else s) :: Net.forLayersFrom I f (k + 1) net ss
  | _, _, _ => []

/-- the same loop over the whole model. bops/bops.py lines 59-62, 77-89, 91-110. -/
def Net.forLayers (I : List ℕ) (f : Node → LState → LState) (net : Net) (ss : List LState) : List LState :=
  Net.forLayersFrom I f 0 net ss

/-- `layer.reset_minmax(); layer.record_minmax = True`, bops.py lines 61-62 -/
def startRecording (s : LState) : LState := ⟨s.q.reset, true⟩

/-- the cover factor applied to the quantizer of a layer, bops.py lines 81-89; `self.paq(x)` clips the bitwidths and
quantizes. A range that was never recorded (`inf`, `-inf`) becomes `nan` in the code; here it stays unrecorded, which
`get_bits_exact` rejects in the same way. -/
def QConf.cover (c : QConf) (factor : ℚ) (s : QState) : QState :=
  { fbw := fun e => c.clip (s.fbw e)
    mn := fun e => match s.mn e, s.mx e with
      | some lo, some hi =>
        ((evalQ c.strategy (c.clip (s.fbw e)) ((lo + hi) / 2 - (hi - lo) / 2 * factor) : ℚ) : WithTop ℚ)
      | m, _ => m
    mx := fun e => match s.mn e, s.mx e with
      | some lo, some hi =>
        ((evalQ c.strategy (c.clip (s.fbw e)) ((lo + hi) / 2 + (hi - lo) / 2 * factor) : ℚ) : WithBot ℚ)
      | _, m => m }

/-- the cover factor on a layer. bops/bops.py lines 81-89. -/
def Node.cover (factor : ℚ) (nd : Node) (s : LState) : LState :=
  match nd.site with
  | none => s
  | some q => ⟨q.conf.cover factor s.q, s.recording⟩

/-- the keyword arguments of `trace_minmax` (`verbose` only prints). bops/bops.py line 57. -/
structure TraceOpts where
  bsz : ℕ := 16384
  returnPredictions : Bool := false
  noBops : Bool := false
  rst : Bool := true
  cover : ℚ := 1

/-- an array of predictions: one row for every sample, or, for models with several outputs, an array with one more
dimension. bops/bops.py line 125. -/
inductive Preds
  | rows (l : List (List ℚ))
  | stacked (l : List (List (List ℚ)))
  deriving DecidableEq, Repr

/-- all tensors have the same shape. Needed by `np.concatenate`, bops/bops.py line 125. -/
def sameShape (ts : List (List (List ℚ))) : Bool :=
  match ts with
  | [] => true
  | t :: ts' => ts'.all fun u => u.map List.length == t.map List.length

/-- `np.concatenate(r, axis=0)`, bops.py line 125. `outs`: the outputs of the model. With one output `r` is a list of
arrays; with several, every entry of `r` is a list of arrays, which numpy first stacks into one. -/
def concatPreds (outs : List ℕ) (r : List (List (List (List ℚ)))) : Except String Preds :=
  if r.isEmpty then .error "need at least one array to concatenate"
  else match outs with
    | [o] => .ok (.rows (r.flatMap fun b => b.map fun env => env.getD o []))
    | outs =>
      let arrs := r.map fun b => outs.map fun o => b.map fun env => env.getD o []
      if sameShape arrs.flatten then .ok (.stacked arrs.flatten) else .error "inhomogeneous shape"

/-- what `trace_minmax` returns: -1, the BOPs, or the BOPs and the predictions.
bops/bops.py lines 113, 125, 127. -/
inductive TraceRes
  | minusOne
  | bops (b : ℚ)
  | withPreds (b : ℚ) (p : Preds)
  deriving DecidableEq, Repr

/-- sum of `compute_exact_bops` over the listed layers, bops.py lines 115-122 -/
def sumBops (bopsOf : ℕ → List LState → Except String ℚ) (ss : List LState) : List ℕ → Except String ℚ
  | [] => .ok 0
  | i :: is => do return (← bopsOf i ss) + (← sumBops bopsOf ss is)

/-- the listed layers that are `HLayerBase`s. bops/bops.py lines 60, 78, 94, 117. -/
def Net.hLayers (net : Net) (I : List ℕ) : List ℕ :=
  I.filter fun i => match net[i]? with
    | some ni => ni.1.site.isSome
    | none => false

/-- `trace_minmax`, bops.py lines 57-127, for a model with outputs `outs` listing the layers `ts`. `bopsOf i` is
`compute_exact_bops` of layer `i` (`Verif/Model/Bops.lean`). Returns the states of all layers and the value returned; the
states are those at the end of a call that does not raise. -/
def Net.traceMinmax (net : Net) (ts : List LTree) (outs : List ℕ) (bopsOf : ℕ → List LState → Except String ℚ)
    (o : TraceOpts) (ss : List LState) (data : List (List (List ℚ))) : Except String (List LState × TraceRes) := do
  let I := topLayers ts
  let ss := if o.rst then net.forLayers I (fun _ => startRecording) ss else ss
  if o.bsz = 0 then .error "range() arg 3 must not be zero"
  let (ss, r) ← net.runBatches ss (chunks o.bsz data)
  if o.cover ≠ 1 ∧ ¬ o.cover > 0 then .error "AssertionError"
  let ss := if o.cover ≠ 1 then net.forLayers I (Node.cover o.cover) ss else ss
  let ss := net.forLayers I (fun nd s => ⟨nd.adjust s.q, s.recording⟩) ss
  if o.noBops then return (ss, .minusOne)
  let ss := net.forLayers I (fun _ s => ⟨s.q, false⟩) ss
  let b ← sumBops bopsOf ss (net.hLayers I)
  if o.returnPredictions then return (ss, .withPreds b (← concatPreds outs r))
  return (ss, .bops b)

/-! Callbacks -/

mutual
/-- the body of the loop of `ResetMinMax.reset_minmax`, bops.py lines 36-39 -/
def Net.resetOne (net : Net) : LTree → List LState → List LState
  | .layer i, ss => match net[i]? with
    | some ni => if ni.1.site.isSome then ss.modify i fun s => ⟨s.q.reset, s.recording⟩ else ss
    | none => ss
  | .model ts, ss => net.resetMinmax ts ss
/-- `ResetMinMax.reset_minmax(model)`, bops.py lines 33-39 -/
def Net.resetMinmax (net : Net) : List LTree → List LState → List LState
  | [], ss => ss
  | t :: ts, ss => net.resetMinmax ts (net.resetOne t ss)
end

mutual
/-- `FreeBOPs._bops`, bops.py lines 17-25, on one entry of `model.layers`. `b i`: the variable `bops` of layer `i`, `none`
if it has none. -/
def freeBops1 (b : ℕ → Option ℚ) : LTree → ℚ
  | .layer i => (b i).getD 0
  | .model ts => freeBops b ts
/-- `FreeBOPs._bops`, bops.py lines 17-25 -/
def freeBops (b : ℕ → Option ℚ) : List LTree → ℚ
  | [] => 0
  | t :: ts => freeBops1 b t + freeBops b ts
end

end HGQ
