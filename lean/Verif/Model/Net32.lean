import Verif.Model.Net
import Verif.Model.LayerFloat32

/-!
Whole networks, `trace_minmax` and `to_proxy_model` as evaluated in float32. The definitions follow `Verif/Model/Net.lean` one by
one. The order in which matrix products, convolutions and `tf.reduce_sum` accumulate is not specified by TensorFlow: it is a parameter,
free to differ between batches, layers, samples, output positions, and between model and proxy. Activation functions are float32
functions given as they are, the same in model and proxy (`HActivation` may be compiled with XLA, layers/misc.py lines 39-49).
-/

namespace HGQ

/-- what is added up at output position `p` of a layer with `n` inputs: pairs (position in the input, position in the kernel), or
inputs (first component) for `HAdd`. layers/dense.py line 65, layers/conv.py lines 92-100, layers/misc.py line 66. -/
def Node.terms (nd : Node) (n p : ℕ) : List (ℕ × ℕ) :=
  match nd with
  | .add _ => (List.range n).map fun i => (i, 0)
  | .linear L => L.taps p
  | _ => []

/-- the value at position `p` handed to the quantizer, in float32; `o`: accumulation order per position.
layers/dense.py lines 64-68, layers/conv.py lines 119-123, layers/misc.py lines 24, 54, 66. -/
def Node.preAtF (fl : ℚ → ℚ) (nd : Node) (fbw : ℕ → ℚ) (o : ℕ → Acc (ℕ × ℕ)) (ins : List (List ℚ)) (p : ℕ) : ℚ :=
  match nd with
  | .quantize _ => (ins.headD []).getD p 0
  | .activation _ φ _ => (φ (ins.headD [])).getD p 0
  | .add _ => (o p).runF fl (fun ij => (ins.getD ij.1 []).getD p 0) (fun _ => 1)
  | .linear L => L.preactF fl o (L.qkernelF fl) (L.jitBiasF fl fbw) (ins.headD []) p
  | .passive g => (g ins).getD p 0

/-- one call of a layer with `training=False` on a batch in float32, layers/base.py lines 145-155 and quantizer/quantizer.py
lines 137-179; `o b p` the accumulation order for sample `b` and position `p`. -/
def Node.callF (fl : ℚ → ℚ) (nd : Node) (s : QState) (record : Bool) (o : ℕ → ℕ → Acc (ℕ × ℕ)) (insB : List (List (List ℚ))) :
    QState × List (List ℚ) :=
  match nd.site with
  | none => (s, insB.map (nd.pre s.fbw))
  | some q =>
    let s' : QState := { s with fbw := fun e => q.conf.clip (s.fbw e) }
    let xq := insB.zipIdx.map fun ib => (List.range (prodL q.outShape)).map fun p =>
      evalQF fl q.conf.strategy (s'.fbw (q.elem p)) (nd.preAtF fl s.fbw (o ib.2) ib.1 p)
    (if record then s'.record q.elem xq else s', xq.map fun z => z.map nd.post)

/-- the choices of accumulation orders in a run: layer, sample, output position. layers/dense.py line 65, layers/conv.py
lines 92-100, layers/misc.py line 66. -/
abbrev Orders := ℕ → ℕ → ℕ → Acc (ℕ × ℕ)

/-- `model(batch, training=False)` in float32. layers/base.py lines 145-155 in every layer. -/
def Net.callF (fl : ℚ → ℚ) (record : Bool) : Net → List QState → Orders → List (List (List ℚ)) →
    Except String (List QState × List (List (List ℚ)))
  | [], _, _, envs => .ok ([], envs)
  | (nd, ins) :: rest, s :: ss, o, envs => do
    let (s', outs) := nd.callF fl s record (o 0) (envs.map (gather · ins))
    let (ss', envs') ← Net.callF fl record rest ss (fun n => o (n + 1)) (List.zipWith (fun env v => env ++ [v]) envs outs)
    return (s' :: ss', envs')
  | _ :: _, [], _, _ => .error "missing state"

/-- the batch loop of `trace_minmax` in float32, bops.py lines 64-71; `o i` are the orders used for batch `i` -/
def Net.callBatchesF (fl : ℚ → ℚ) (record : Bool) (net : Net) : List QState → (ℕ → Orders) → List (List (List (List ℚ))) →
    Except String (List QState × List (List (List ℚ)))
  | ss, _, [] => .ok (ss, [])
  | ss, o, b :: bs => do
    let (ss', envs) ← net.callF fl record ss (o 0) b
    let (ss'', envs') ← Net.callBatchesF fl record net ss' (fun i => o (i + 1)) bs
    return (ss'', envs ++ envs')

/-- `trace_minmax(model, dataset, bsz)` in float32, bops.py lines 57-110 (`rst=True`, `cover_factor=1`) -/
def Net.traceF (fl : ℚ → ℚ) (net : Net) (ss : List QState) (o : ℕ → Orders) (bsz : ℕ) (data : List (List (List ℚ))) :
    Except String (List QState × List (List (List ℚ))) := do
  let (ss', envs) ← net.callBatchesF fl true (ss.map QState.reset) o (chunks bsz data)
  return (List.zipWith (fun ni s => ni.1.adjust s) net ss', envs)

/-- `model(x, training=False)` on one sample in float32, not recording. layers/base.py lines 145-155 in every layer. -/
def Net.predictF (fl : ℚ → ℚ) (net : Net) (ss : List QState) (o : Orders) (x : List (List ℚ)) : Except String (List (List ℚ)) := do
  let (_, envs) ← net.callF fl false ss o [x]
  match envs with
  | [env] => return env
  | _ => .error "bad batch"

/-- the value at position `p` computed by the proxy of a layer in float32. proxy/convert.py lines 290-336. -/
def Node.proxyAtF (fl : ℚ → ℚ) (nd : Node) (s : QState) (S : Sat) (o : ℕ → Acc (ℕ × ℕ)) (ins : List (List ℚ)) (p : ℕ) : ℚ :=
  match nd with
  | .quantize q => (proxyQ (q.bitsAt s p)).applyF fl (proxyRnd q.conf.strategy false) S (nd.preAtF fl s.fbw o ins p)
  | .activation _ _ q => (proxyQ (q.bitsAt s p)).applyF fl (proxyRnd q.conf.strategy false) S (nd.preAtF fl s.fbw o ins p)
  | .add q => (proxyQ (q.bitsAt s p)).applyF fl (proxyRnd q.conf.strategy false) S (nd.preAtF fl s.fbw o ins p)
  | .linear L => L.proxyOutF fl s S o (ins.headD []) p
  | .passive _ => nd.preAtF fl s.fbw o ins p

/-- `ProxyLayerXFormer.__call__` on one layer, the result as evaluated in float32. proxy/convert.py lines 290-336. -/
def Node.toProxyF (fl : ℚ → ℚ) (nd : Node) (s : QState) (S : Sat) :
    Except String ((ℕ → Acc (ℕ × ℕ)) → List (List ℚ) → List ℚ) :=
  match nd.site with
  | none => .ok fun _ => nd.pre s.fbw
  | some q =>
    match s.getBitsExact (prodL q.qShape) false with
    | .error e => .error e
    | .ok _ => .ok fun o ins => (List.range (prodL q.outShape)).map (nd.proxyAtF fl s S o ins)

/-- a proxy model evaluated in float32. The model returned at proxy/convert.py line 216. -/
abbrev PNet32 := List (((ℕ → Acc (ℕ × ℕ)) → List (List ℚ) → List ℚ) × List ℕ)

/-- `to_proxy_model(model, aggressive)`, convert.py lines 351-377 -/
def Net.toProxyF (fl : ℚ → ℚ) (S : Sat) : Net → List QState → Except String PNet32
  | [], _ => .ok []
  | (nd, ins) :: rest, s :: ss => do
    let f ← nd.toProxyF fl s S
    let r ← Net.toProxyF fl S rest ss
    return (f, ins) :: r
  | _ :: _, [] => .error "missing state"

/-- `proxy(x)` on one sample in float32; `o n p`: accumulation order in layer `n` at position `p`.
Calling the model returned at proxy/convert.py line 216. -/
def PNet32.eval : PNet32 → (ℕ → ℕ → Acc (ℕ × ℕ)) → List (List ℚ) → List (List ℚ)
  | [], _, env => env
  | (f, ins) :: rest, o, env => PNet32.eval rest (fun n => o (n + 1)) (env ++ [f (o 0) (gather env ins)])

end HGQ
