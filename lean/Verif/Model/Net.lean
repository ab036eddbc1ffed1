import Verif.Model.Layer

/-!
Feed-forward networks of HGQ layers, `trace_minmax` and `to_proxy_model`.

A network is a list of nodes in topological order. An environment is the list of tensors (for one sample) computed so
far, the model inputs first; a node names its inputs by position.

Sources: `/repo/src/HGQ/layers/*.py`, `/repo/src/HGQ/bops/bops.py`, `/repo/src/HGQ/proxy/convert.py`.
-/

namespace HGQ

/-- an activation quantizer attached to a tensor of shape `outShape`.
`self.paq`, layers/base.py lines 130-143. -/
structure QSite where
  conf : QConf
  outShape : List ℕ
  qShape : List ℕ

/-- the element of the quantizer used at output position `p`; quantizer/quantizer.py line 160 (broadcasting). -/
def QSite.elem (q : QSite) (p : ℕ) : ℕ := elemOf q.outShape q.qShape p

/-- activation functions singled out by `trace_minmax`, bops.py lines 96-110 -/
inductive ActKind | softmax | sigmoid | tanh | other
  deriving DecidableEq, Repr

/-- a layer instance.
The layer classes of layers/dense.py, layers/conv.py, layers/misc.py and layers/passive_layers.py, lines cited at each constructor. -/
inductive Node
  /-- `HQuantize`, misc.py lines 13-27 -/
  | quantize (q : QSite)
  /-- `HActivation`, misc.py lines 30-58; `φ` maps a whole sample (softmax mixes positions) -/
  | activation (kind : ActKind) (φ : List ℚ → List ℚ) (q : QSite)
  /-- `HAdd`, misc.py lines 61-70 -/
  | add (q : QSite)
  /-- `HDense`, `HConv*`, `HDenseBatchNorm`, `HConvBatchNorm`: dense.py lines 10-72 and 97-211, conv.py lines 12-127
  and 257-393 -/
  | linear (L : LinLayer)
  /-- `PLayerBase` (reshape, flatten, pooling, concatenate, ...): no quantizer, same function in the proxy,
  passive_layers.py and convert.py lines 333-336 -/
  | passive (g : List (List ℚ) → List ℚ)

/-- the quantizer of a node, if any.
layers/base.py line 143; passive layers, layers/passive_layers.py lines 12-182, have none. -/
def Node.site : Node → Option QSite
  | .quantize q => some q
  | .activation _ _ q => some q
  | .add q => some q
  | .linear L => some ⟨L.paq, L.outShape, L.qShape⟩
  | .passive _ => none

/-- value at position `p` handed to the quantizer. Inputs have the shapes the layer was built for (Keras checks
this), so `getD` never uses its default. `fbw`: bitwidths before the call.
layers/dense.py lines 64-68, layers/conv.py lines 119-123, layers/misc.py lines 24, 54, 66. -/
def Node.preAt (nd : Node) (fbw : ℕ → ℚ) (ins : List (List ℚ)) (p : ℕ) : ℚ :=
  match nd with
  | .quantize _ => (ins.headD []).getD p 0
  | .activation _ φ _ => (φ (ins.headD [])).getD p 0
  | .add _ => (ins.map fun x => x.getD p 0).sum
  | .linear L => L.pre fbw (ins.headD []) p
  | .passive g => (g ins).getD p 0

/-- the tensor handed to the quantizer (the output, for a passive layer).
layers/dense.py lines 64-68, layers/conv.py lines 119-123, layers/misc.py lines 24, 54, 66, layers/passive_layers.py lines 81-182. -/
def Node.pre (nd : Node) (fbw : ℕ → ℚ) (ins : List (List ℚ)) : List ℚ :=
  match nd.site with
  | none => match nd with
    | .passive g => g ins
    | _ => []
  | some q => (List.range (prodL q.outShape)).map (nd.preAt fbw ins)

/-- the activation applied after the quantizer. layers/dense.py line 70, layers/conv.py line 125. -/
def Node.post : Node → ℚ → ℚ
  | .linear L => L.post
  | _ => id

/-- One call of a layer with `training=False` on a batch, base.py lines 145-155 and the `forward` methods.
`insB` lists the inputs of every sample. -/
def Node.call (nd : Node) (s : QState) (record : Bool) (insB : List (List (List ℚ))) :
    Except String (QState × List (List ℚ)) :=
  match nd.site with
  | none => .ok (s, insB.map (nd.pre s.fbw))
  | some q => do
    let (s', zq) ← q.conf.call q.elem s (fun _ _ => 0) false record (insB.map (nd.pre s.fbw))
    return (s', zq.map fun z => z.map nd.post)

/-- a network: nodes with the positions of their inputs in the environment.
A functional Keras model as walked by proxy/convert.py lines 34-54. -/
abbrev Net := List (Node × List ℕ)

/-- inputs of a node. proxy/convert.py lines 121-129 (the tensors a layer is called on). -/
def gather (env : List (List ℚ)) (ins : List ℕ) : List (List ℚ) := ins.map fun i => env.getD i []

/-- `model(batch, training=False)`: run the layers in topological order on a batch; `record` is the
`record_minmax` flag of the layers.
bops/bops.py lines 68 and 71 call it; the layers' part is layers/base.py lines 145-155. -/
def Net.call (record : Bool) : Net → List QState → List (List (List ℚ)) →
    Except String (List QState × List (List (List ℚ)))
  | [], _, envs => .ok ([], envs)
  | (nd, ins) :: rest, s :: ss, envs => do
    let (s', outs) ← nd.call s record (envs.map (gather · ins))
    let (ss', envs') ← Net.call record rest ss (List.zipWith (fun env o => env ++ [o]) envs outs)
    return (s' :: ss', envs')
  | _ :: _, [], _ => .error "missing state"

/-- the batches `dataset[i:i+bsz] for i in range(0, len(dataset), bsz)`, bops.py lines 64-71 (`bsz ≥ 1`) -/
def chunks (bsz : ℕ) (l : List α) : List (List α) :=
  (List.range ((l.length + bsz - 1) / bsz)).map fun i => (l.drop (i * bsz)).take bsz

/-- the batch loop of `trace_minmax`, bops.py lines 64-71, returning the states and the tensors of all samples -/
def Net.callBatches (record : Bool) (net : Net) : List QState → List (List (List (List ℚ))) →
    Except String (List QState × List (List (List ℚ)))
  | ss, [] => .ok (ss, [])
  | ss, b :: bs => do
    let (ss', envs) ← net.call record ss b
    let (ss'', envs') ← Net.callBatches record net ss' bs
    return (ss'', envs ++ envs')

/-- adjustment of recorded ranges of softmax/sigmoid/tanh layers, bops.py lines 91-110. -/
def Node.adjust (nd : Node) (s : QState) : QState :=
  match nd with
  | .activation .softmax _ _ => { s with mn := fun _ => (0 : ℚ), mx := fun _ => (1 : ℚ) }
  | .activation .sigmoid _ _ =>
    { s with mn := fun e => max (s.mn e) (0 : ℚ), mx := fun e => min (s.mx e) (1 : ℚ) }
  | .activation .tanh _ _ =>
    { s with mn := fun e => max (s.mn e) ((-1 : ℚ) : ℚ), mx := fun e => min (s.mx e) (1 : ℚ) }
  | _ => s

/-- `trace_minmax(model, dataset, bsz)` with `rst=True`, `cover_factor=1`: reset, record over all batches, adjust;
bops.py lines 57-110. Returns the final states and the tensors of all samples (for `return_predictions`). -/
def Net.trace (net : Net) (ss : List QState) (bsz : ℕ) (data : List (List (List ℚ))) :
    Except String (List QState × List (List (List ℚ))) := do
  let (ss', envs) ← net.callBatches true (ss.map QState.reset) (chunks bsz data)
  return (List.zipWith (fun ni s => ni.1.adjust s) net ss', envs)

/-- `get_bits_exact` for the quantizer of a node, element-wise. proxy/convert.py lines 267-271. -/
def QSite.bitsAt (q : QSite) (s : QState) (p : ℕ) : KIF :=
  bitsExact ((s.mn (q.elem p)).untopD 0) ((s.mx (q.elem p)).unbotD 0) (s.fbw (q.elem p)) false

/-- value at position `p` computed by the proxy of a node, convert.py lines 290-336: the Keras layer followed by a
`FixedPointQuantizer` (`proxyOut` for layers with a kernel; the other layers have no bias, so
`can_bias_cover_rnd` is `False`). -/
def Node.proxyAt (nd : Node) (s : QState) (S : Sat) (ins : List (List ℚ)) (p : ℕ) : ℚ :=
  match nd with
  | .quantize q => (proxyQ (q.bitsAt s p)).apply (proxyRnd q.conf.strategy false) S (nd.preAt s.fbw ins p)
  | .activation _ _ q => (proxyQ (q.bitsAt s p)).apply (proxyRnd q.conf.strategy false) S (nd.preAt s.fbw ins p)
  | .add q => (proxyQ (q.bitsAt s p)).apply (proxyRnd q.conf.strategy false) S (nd.preAt s.fbw ins p)
  | .linear L => L.proxyOut s S (ins.headD []) p
  | .passive _ => nd.preAt s.fbw ins p

/-- `ProxyLayerXFormer.__call__` on one node: raises if `get_bits_exact` does, otherwise gives a stateless layer.
proxy/convert.py lines 290-336. -/
def Node.toProxy (nd : Node) (s : QState) (S : Sat) : Except String (List (List ℚ) → List ℚ) :=
  match nd.site with
  | none => .ok (nd.pre s.fbw)
  | some q =>
    match s.getBitsExact (prodL q.qShape) false with
    | .error e => .error e
    | .ok _ => .ok fun ins => (List.range (prodL q.outShape)).map (nd.proxyAt s S ins)

/-- a proxy model: stateless layers with the positions of their inputs.
The model returned at proxy/convert.py line 216. -/
abbrev PNet := List ((List (List ℚ) → List ℚ) × List ℕ)

/-- `to_proxy_model(model, aggressive)`, convert.py lines 351-377 (graph reconstruction by `convert_model` is
modelled in `Verif/Model/Convert.lean`). -/
def Net.toProxy (S : Sat) : Net → List QState → Except String PNet
  | [], _ => .ok []
  | (nd, ins) :: rest, s :: ss => do
    let f ← nd.toProxy s S
    let r ← Net.toProxy S rest ss
    return (f, ins) :: r
  | _ :: _, [] => .error "missing state"

/-- `proxy(x)`: run the proxy model on one sample.
Calling the model returned at proxy/convert.py line 216. -/
def PNet.eval : PNet → List (List ℚ) → List (List ℚ)
  | [], env => env
  | (f, ins) :: rest, env => PNet.eval rest (env ++ [f (gather env ins)])

/-- `model(x, training=False)` on one sample, not recording.
layers/base.py lines 145-155 in every layer. -/
def Net.predict (net : Net) (ss : List QState) (x : List (List ℚ)) : Except String (List (List ℚ)) := do
  let (_, envs) ← net.call false ss [x]
  match envs with
  | [env] => return env
  | _ => .error "bad batch"

end HGQ
