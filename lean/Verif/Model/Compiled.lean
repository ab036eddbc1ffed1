import Verif.Model.Trace

/-!
Model of repeated use of one model object: `trace_minmax` (`/repo/src/HGQ/bops/bops.py` lines 57-127), the callbacks, direct
calls, and Keras' `predict`/`evaluate`, which run a compiled function.

`HLayerBase.call` (`/repo/src/HGQ/layers/base.py` lines 145-155) reads the Python attribute `self.record_minmax`. A direct
call `model(x)` reads it each time. `model.predict` and `model.evaluate` wrap the call in a `tf.function` kept until the next
`model.compile`; that function reads Python attributes only when it is traced, once for every input signature.
-/

namespace HGQ

/-- a model object: the states of its layers, and the compiled inference functions: for each input signature that was traced,
the values of `record_minmax` the tracing saw. layers/base.py lines 53 and 149-150. -/
structure MState where
  layers : List LState
  cache : List (ℕ × List Bool)

/-- what a user can do with a model. bops/bops.py lines 28-39 and 57-127, layers/base.py lines 145-155. -/
inductive MOp
  /-- `model(batch, training=False)` -/
  | call (batch : List (List (List ℚ)))
  /-- `model.predict` or `model.evaluate` on a batch with input signature `sig` (which also tells the two apart) -/
  | predict (sig : ℕ) (batch : List (List (List ℚ)))
  /-- `model.compile`, which drops the compiled functions -/
  | compile
  /-- any amount of training: it leaves some state of the quantizers (ranges, bitwidths) behind -/
  | train (qs : ℕ → QState)
  /-- `ResetMinMax.reset_minmax(model)` -/
  | reset
  /-- `trace_minmax` that returns -/
  | trace (o : TraceOpts) (data : List (List (List ℚ)))
  /-- `trace_minmax` that is interrupted (an exception, Ctrl-C) after `n` batches -/
  | interrupted (o : TraceOpts) (n : ℕ) (data : List (List (List ℚ)))

/-- layer states with other recording flags: what a compiled function runs with. layers/base.py lines 149-150. -/
def withFlags (ss : List LState) (fl : List Bool) : List LState := List.zipWith (fun s r => ⟨s.q, r⟩) ss fl

/-- one step. `call`, `predict`: layers/base.py lines 145-155; `reset`: bops/bops.py lines 33-39; `trace`, `interrupted`:
bops/bops.py lines 57-127 and 58-71. `compile` and the caching are Keras' and TensorFlow's. -/
def Net.stepM (net : Net) (ts : List LTree) (outs : List ℕ) (bopsOf : ℕ → List LState → Except String ℚ) (m : MState) :
    MOp → Except String MState
  | .call batch => do
    let (ss, _) ← net.run m.layers batch
    return ⟨ss, m.cache⟩
  | .predict sig batch => do
    let fl := (m.cache.lookup sig).getD (m.layers.map (·.recording))
    let (ss, _) ← net.run (withFlags m.layers fl) batch
    return ⟨withFlags ss (m.layers.map (·.recording)), if (m.cache.lookup sig).isSome then m.cache else (sig, fl) :: m.cache⟩
  | .compile => .ok ⟨m.layers, []⟩
  | .train qs => .ok ⟨m.layers.mapIdx fun i s => ⟨qs i, s.recording⟩, m.cache⟩
  | .reset => .ok ⟨net.resetMinmax ts m.layers, m.cache⟩
  | .trace o data => do
    let (ss, _) ← net.traceMinmax ts outs bopsOf o m.layers data
    return ⟨ss, m.cache⟩
  | .interrupted o n data => do
    let ss := if o.rst then net.forLayers (topLayers ts) (fun _ => startRecording) m.layers else m.layers
    let (ss, _) ← net.runBatches ss ((chunks o.bsz data).take n)
    return ⟨ss, m.cache⟩

/-- a history of uses. bops/bops.py lines 57-127. -/
def Net.history (net : Net) (ts : List LTree) (outs : List ℕ) (bopsOf : ℕ → List LState → Except String ℚ) :
    MState → List MOp → Except String MState
  | m, [] => .ok m
  | m, op :: ops => do net.history ts outs bopsOf (← net.stepM ts outs bopsOf m op) ops

end HGQ
