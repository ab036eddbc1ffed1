import Verif.Model.Net

/-!
Models that call a layer at several places. A layer called several times has one quantizer, which records at every call.

Sources: `/repo/src/HGQ/layers/base.py` lines 18-37 and 145-155, `/repo/src/HGQ/bops/bops.py` lines 57-110,
`/repo/src/HGQ/proxy/convert.py` lines 86-165.
-/

namespace HGQ

/-- a model: its layers, and the calls in topological order (layer, positions of the inputs).
A Keras node is a call of a layer, proxy/convert.py lines 46-53. -/
structure SNet where
  layers : List Node
  calls : List (ℕ × List ℕ)

/-- how often layer `l` is called: `len(self._inbound_nodes)`, layers/base.py lines 28 and 36 -/
def SNet.uses (net : SNet) (l : ℕ) : ℕ := (net.calls.filter fun c => c.1 == l).length

/-- layers whose `forward` reads `input_bw`: layers/dense.py lines 52 and 170, layers/conv.py lines 106 and 351 -/
def Node.hasKernel : Node → Bool
  | .linear _ => true
  | _ => false

/-- `model(batch, training=False)`: the calls `cs` still to be made, with one state per layer. layers/base.py lines 145-155;
layers with a kernel that are called several times are refused by layers/base.py line 28. -/
def SNet.callFrom (record : Bool) (net : SNet) : List (ℕ × List ℕ) → (ℕ → QState) → List (List (List ℚ)) →
    Except String ((ℕ → QState) × List (List (List ℚ)))
  | [], st, envs => .ok (st, envs)
  | (l, ins) :: cs, st, envs =>
    match net.layers[l]? with
    | none => .error "no such layer"
    | some nd => do
      let (s', outs) ← nd.call (st l) record (envs.map (gather · ins))
      if nd.hasKernel && decide (1 < net.uses l) then .error "Layer is reused. This is not allowed."
      SNet.callFrom record net cs (Function.update st l s') (List.zipWith (fun env o => env ++ [o]) envs outs)

/-- `model(batch, training=False)`. layers/base.py lines 145-155 at every call. -/
def SNet.call (record : Bool) (net : SNet) (st : ℕ → QState) (envs : List (List (List ℚ))) :
    Except String ((ℕ → QState) × List (List (List ℚ))) := net.callFrom record net.calls st envs

/-- the batch loop of `trace_minmax`, bops.py lines 64-71 -/
def SNet.callBatches (record : Bool) (net : SNet) : (ℕ → QState) → List (List (List (List ℚ))) →
    Except String ((ℕ → QState) × List (List (List ℚ)))
  | st, [] => .ok (st, [])
  | st, b :: bs => do
    let (st', envs) ← net.call record st b
    let (st'', envs') ← SNet.callBatches record net st' bs
    return (st'', envs ++ envs')

/-- bops.py lines 91-110, once for every layer (`model.layers` lists a layer once) -/
def SNet.adjust (net : SNet) (st : ℕ → QState) : ℕ → QState := fun l =>
  match net.layers[l]? with
  | some nd => nd.adjust (st l)
  | none => st l

/-- `trace_minmax(model, dataset, bsz)` with `rst=True`, `cover_factor=1`, bops.py lines 57-110 -/
def SNet.trace (net : SNet) (st : ℕ → QState) (bsz : ℕ) (data : List (List (List ℚ))) :
    Except String ((ℕ → QState) × List (List (List ℚ))) := do
  let (st', envs) ← net.callBatches true (fun l => (st l).reset) (chunks bsz data)
  return (net.adjust st', envs)

/-- `model(x, training=False)` on one sample, not recording. layers/base.py lines 145-155. -/
def SNet.predict (net : SNet) (st : ℕ → QState) (x : List (List ℚ)) : Except String (List (List ℚ)) := do
  let (_, envs) ← net.call false st [x]
  match envs with
  | [env] => return env
  | _ => .error "bad batch"

/-- `to_proxy_model(model, aggressive)`: every call gets its own proxy layer, made from the layer and its state and renamed if the name
is taken. proxy/convert.py lines 86-100, 121-131, 149-165 and 290-336; the graph is in `Verif/Model/Convert.lean`. -/
def SNet.toProxyFrom (S : Sat) (net : SNet) (st : ℕ → QState) : List (ℕ × List ℕ) → Except String PNet
  | [] => .ok []
  | (l, ins) :: cs =>
    match net.layers[l]? with
    | none => .error "no such layer"
    | some nd => do
      let f ← nd.toProxy (st l) S
      let r ← SNet.toProxyFrom S net st cs
      return (f, ins) :: r

/-- `to_proxy_model(model, aggressive)`, convert.py lines 351-377 -/
def SNet.toProxy (S : Sat) (net : SNet) (st : ℕ → QState) : Except String PNet := net.toProxyFrom S st net.calls

end HGQ
