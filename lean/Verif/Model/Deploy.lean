import Verif.Model.Net
import Verif.Model.PrecGraph

/-!
The layers of the proxy model that `to_proxy_model` makes from each layer of an HGQ model, as a graph for the precision
derivation: `ProxyLayerXFormer.__call__` in `/repo/src/HGQ/proxy/convert.py` lines 260-348, with the sub-models of the layers
inlined the way `convert_model` does.
-/

namespace HGQ

/-- What the model of a network leaves open about a node: the Keras layer of an activation or passive layer, the number of kernel
entries, and the number of units or filters. `to_keras_layer`, proxy/convert.py lines 222-258. -/
structure Desc where
  klayer : PLay
  kernelSize : ℕ
  units : ℕ

/-- the `FixedPointQuantizer` made from an activation quantizer; proxy/convert.py lines 265-276, 293 and 329-330.
`covered`: `can_bias_cover_rnd`. -/
def QSite.quantLay (q : QSite) (s : QState) (S : Sat) (posOnly covered : Bool) : PLay :=
  .quant ⟨(List.range (prodL q.qShape)).map fun e =>
      proxyQ (bitsExact ((s.mn e).untopD 0) ((s.mx e).unbotD 0) (s.fbw e) posOnly),
    proxyRnd q.conf.strategy covered, S⟩ q.outShape q.qShape

/-- the Keras layer of a layer with a kernel, carrying the fused quantized kernel and bias; proxy/convert.py lines 69-88 and
222-258. -/
def LinLayer.kerasLay (L : LinLayer) (s : QState) (d : Desc) : PLay :=
  .linear ((List.range d.kernelSize).map L.qkernel)
    (match L.bias with
      | none => []
      | some _ => (List.range L.nChan).map (L.fusedQBias s))
    d.units (prodL L.outShape) L.taps L.chan

/-- the quantizer in front of the ReLU of a layer with a kernel; proxy/convert.py lines 317-323. -/
def LinLayer.preReluLay (L : LinLayer) (s : QState) (S : Sat) : PLay :=
  let t := L.reluKif s
  let R := proxyRnd L.paq.strategy L.canBiasCover
  let fAdd : ℤ := if R = .TRN then 0 else if R = .RND then 1 else 2
  .quant ⟨[KBI.init t.k (t.k + t.i + t.f + fAdd) (t.k + t.i)], .TRN, S⟩ L.outShape (L.outShape.map fun _ => 1)

/-- The layers of the proxy model for one HGQ layer, in order; proxy/convert.py lines 290-348. -/
def Node.lays (nd : Node) (s : QState) (S : Sat) (d : Desc) : List PLay :=
  match nd with
  | .quantize q => [q.quantLay s S false false]
  | .activation _ _ q => [d.klayer, q.quantLay s S false false]
  | .add q => [.add (prodL q.outShape), q.quantLay s S false false]
  | .linear L =>
    let site : QSite := ⟨L.paq, L.outShape, L.qShape⟩
    if L.reluAct then
      [L.kerasLay s d, L.preReluLay s S, .act false .other relu, site.quantLay s S true L.canBiasCover]
    else [L.kerasLay s d, site.quantLay s S false L.canBiasCover]
  | .passive _ => [d.klayer]

/-- layers one after the other, the first at position `n` with inbound layers `ins`. proxy/convert.py lines 324 and 331. -/
def chain : ℕ → List PLay → List ℕ → PGraph
  | _, [], _ => []
  | n, l :: ls, ins => (l, ins) :: chain (n + 1) ls [n]

/-- a proxy model under construction: its layers, and for each tensor of the HGQ model the layer that computes it.
proxy/convert.py lines 121-216. -/
structure Built where
  graph : PGraph
  pos : List ℕ

/-- add the layers of one HGQ layer. proxy/convert.py lines 121-216. -/
def Built.add (b : Built) (ls : List PLay) (ins : List ℕ) : Built :=
  ⟨b.graph ++ chain b.graph.length ls (ins.map (b.pos.getD · 0)), b.pos ++ [b.graph.length + ls.length - 1]⟩

/-- add the layers of a network. proxy/convert.py lines 121-216. -/
def Net.build (S : Sat) : Net → List QState → List Desc → Built → Built
  | (nd, ins) :: net, s :: ss, d :: ds, b => Net.build S net ss ds (b.add (nd.lays s S d) ins)
  | _, _, _, b => b

/-- The proxy model of a network with `nIn` inputs. proxy/convert.py lines 121-216 and 372. -/
def Net.deploy (net : Net) (ss : List QState) (S : Sat) (ds : List Desc) (nIn : ℕ) : Built :=
  net.build S ss ds ⟨(List.range nIn).map fun _ => (.input, []), List.range nIn⟩

end HGQ
