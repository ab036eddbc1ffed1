import Verif.Model.UnaryLut
import Verif.Model.Shape

/-!
Model of the precision registration of a whole proxy model: `register_qconf`, `get_whatever_quantizer`, `get_config` and
the graph recursion of `get_produced_kif` and `get_request_kif` in `/repo/src/HGQ/proxy/precision_derivation.py`, and the
function the proxy computes (so that the effect of the in-place shrinking of quantizers can be stated).

A proxy model is the list of its layers, each with the positions of its inbound layers. Deriving a type may shrink the
variables of a quantizer, so every query returns the graph after the query. Arithmetic of the layers is exact (`ℚ`).
-/

namespace HGQ

/-- A layer of a proxy model, told apart as far as `get_produced_kif`, `get_request_kif` and `get_config` do, with the
function it computes on one sample. proxy/precision_derivation.py lines 81-187, 210-220, 350-361. -/
inductive PLay
  /-- `InputLayer`, lines 185-187 -/
  | input
  /-- `FixedPointQuantizer` on samples of shape `outShape`, its variables of shape `qShape`, lines 88-105 -/
  | quant (q : FPQ) (outShape qShape : List ℕ)
  /-- `Reshape`, `Flatten` (`through`, see line 213) and `Permute`, lines 177-182: output `p` is position `src p` of the
  input -/
  | move (through : Bool) (n : ℕ) (src : ℕ → ℕ)
  /-- max pooling, lines 177-182: output `p` is the maximum over a non-empty window -/
  | maxPool (n : ℕ) (win : ℕ → ℕ × List ℕ)
  /-- `Concatenate`, lines 152-156: output `p` is position `(src p).2` of input `(src p).1` -/
  | concat (n : ℕ) (src : ℕ → ℕ × ℕ)
  /-- average pooling, lines 121-128; `size` is the product of the pool sizes -/
  | avgPool (size n : ℕ) (win : ℕ → List ℕ)
  /-- `Add`, lines 131-137 -/
  | add (n : ℕ)
  /-- `Subtract`, lines 131-137 -/
  | sub (n : ℕ)
  /-- `Dot`, lines 140-149 -/
  | dot (n : ℕ) (terms : ℕ → List (ℕ × ℕ))
  /-- `Dense`, `Conv`, lines 159-174: output `p` is the sum over `taps p` of input times kernel entry plus the bias of its
  channel (`bias` is empty without one) -/
  | linear (kernel bias : List ℚ) (div n : ℕ) (taps : ℕ → List (ℕ × ℕ)) (chan : ℕ → ℕ)
  /-- `Activation`, `ReLU`, `LeakyReLU`, lines 108-118; `isAct`: an `Activation`, line 355 -/
  | act (isAct : Bool) (fn : ActFn) (phi : ℚ → ℚ)
  /-- softmax as `Activation` or as `Softmax`, lines 112-116 -/
  | softmax (isAct : Bool) (g : List ℚ → List ℚ)
  /-- `UnaryLUT` (has `proxy_ready`), unary_lut.py lines 37-42 and 103 -/
  | lut (L : Lut)
  /-- any other layer, lines 81-85 -/
  | other (g : List (List ℚ) → List ℚ)

/-- the value of position `p`. Tensor indexing behind the `call` of the layers named at
proxy/precision_derivation.py lines 108-177. -/
def at0 (x : List ℚ) (p : ℕ) : ℚ := x.getD p 0

/-- The function of a layer on one sample; `ins` are the values of its inbound layers.
Quantizer: proxy/fixed_point_quantizer.py lines 178-182; `UnaryLUT`: proxy/unary_lut.py lines 37-42; the others are the
Keras layers named at proxy/precision_derivation.py lines 108-187. -/
def PLay.eval (l : PLay) (ins : List (List ℚ)) : List ℚ :=
  let x := ins.headD []
  match l with
  | .input => x
  | .quant q o s => (List.range (prodL o)).map fun p => q.call (elemOf o s p) (at0 x p)
  | .move _ n src => (List.range n).map fun p => at0 x (src p)
  | .maxPool n win => (List.range n).map fun p => ((win p).2.map (at0 x)).foldr max (at0 x (win p).1)
  | .concat n src => (List.range n).map fun p => at0 (ins.getD (src p).1 []) (src p).2
  | .avgPool _ n win => (List.range n).map fun p => ((win p).map (at0 x)).sum / (win p).length
  | .add n => (List.range n).map fun p => (ins.map (at0 · p)).sum
  | .sub n => (List.range n).map fun p => at0 (ins.getD 0 []) p - at0 (ins.getD 1 []) p
  | .dot n terms => (List.range n).map fun p =>
      ((terms p).map fun t => at0 (ins.getD 0 []) t.1 * at0 (ins.getD 1 []) t.2).sum
  | .linear kernel bias _ n taps chan => (List.range n).map fun p =>
      ((taps p).map fun t => at0 x t.1 * at0 kernel t.2).sum + at0 bias (chan p)
  | .act _ _ phi => x.map phi
  | .softmax _ g => g x
  | .lut L => x.map L.call
  | .other g => g ins

/-- A proxy model: its layers in an order in which inbound layers come first, each with the positions of its inbound
layers (`layer._inbound_nodes[0].inbound_layers`). proxy/precision_derivation.py lines 65-74. -/
abbrev PGraph := List (PLay × List ℕ)

/-- the layer at position `n`. proxy/precision_derivation.py line 81. -/
def PGraph.lay (g : PGraph) (n : ℕ) : Option PLay := g[n]?.map (·.1)

/-- `layer._inbound_nodes[0].inbound_layers` of the layer at position `n`. proxy/precision_derivation.py line 67. -/
def PGraph.ins (g : PGraph) (n : ℕ) : List ℕ := (g[n]?.map (·.2)).getD []

/-- The values of all layers on one sample; `xs n` is the value fed to the input layer at position `n`.
The call of the proxy model made by proxy/convert.py lines 351-377. -/
def PGraph.eval (g : PGraph) (xs : ℕ → List ℚ) : List (List ℚ) :=
  g.foldl (fun env e => env ++ [match e.1 with
    | .input => xs env.length
    | l => l.eval (e.2.map (env.getD · []))]) []

/-- whether `get_produced_kif` of the layer starts with `get_input_kifs`: not for input layers, lookup tables and unknown
layers. proxy/precision_derivation.py lines 81-85 and 185-187, proxy/unary_lut.py line 103. -/
def PLay.queries : PLay → Bool
  | .input | .lut _ | .other _ => false
  | _ => true

/-- `get_produced_kif` given the types `ts` returned for the inbound layers (every layer but an input has one).
proxy/precision_derivation.py lines 81-187, proxy/unary_lut.py line 103. -/
def PLay.kif (l : PLay) (ts : List KIF) : KIF :=
  let t := ts.headD infKif
  match l with
  | .input => infKif
  | .quant q _ _ => (q.produced t).1
  | .move _ _ _ => t
  | .maxPool _ _ => t
  | .concat _ _ => concatKif ts
  | .avgPool size _ _ => avgPoolKif t size
  | .add _ => addKif ts
  | .sub _ => addKif ts
  | .dot _ _ => dotKif (ts.getD 0 infKif) (ts.getD 1 infKif)
  | .linear kernel bias div _ _ _ => linearKif t kernel bias div
  | .act _ _ phi => let m := kifMax ts; activationKifForward phi m.k m.i m.f
  | .softmax _ _ => softmaxKif
  | .lut L => L.kifOut
  | .other _ => infKif

/-- the layer after `get_produced_kif`: a quantizer may have been shrunk.
proxy/precision_derivation.py lines 100-103. -/
def PLay.after (l : PLay) (ts : List KIF) : PLay :=
  match l with
  | .quant q o s => .quant (q.produced (ts.headD infKif)).2 o s
  | l => l

/-- `get_produced_kif` of the layer at position `n`, with the graph left behind. The recursion asks the inbound layers in
order, without remembering earlier answers; it ends at the inputs, so a recursion depth of `n + 1` suffices and the first
argument only bounds it. proxy/precision_derivation.py lines 65-74 and 81-187. -/
def PGraph.produced : ℕ → PGraph → ℕ → KIF × PGraph
  | 0, g, _ => (infKif, g)
  | fuel + 1, g, n =>
    match g[n]? with
    | none => (infKif, g)
    | some (l, ins) =>
      if l.queries then
        let r := ins.foldl (fun (acc : List KIF × PGraph) m =>
          let a := PGraph.produced fuel acc.2 m
          (acc.1 ++ [a.1], a.2)) ([], g)
        (l.kif r.1, r.2.set n (l.after r.1, ins))
      else (l.kif [], g)

/-- `get_input_kifs` of the layer at position `n`. proxy/precision_derivation.py lines 65-74. -/
def PGraph.inputKifs (g : PGraph) (n : ℕ) : List KIF × PGraph :=
  (g.ins n).foldl (fun (acc : List KIF × PGraph) m =>
    let a := acc.2.produced g.length m
    (acc.1 ++ [a.1], a.2)) ([], g)

/-- `[node.outbound_layer for node in layer._outbound_nodes]`, as positions: one entry for every use of the layer.
proxy/precision_derivation.py lines 195, 214, 257, 274, 376. -/
def PGraph.outs (g : PGraph) (n : ℕ) : List ℕ :=
  (List.range g.length).flatMap fun m =>
    ((g.ins m).filter (· = n)).map fun _ => m

/-- the layer at position `m` as `get_request_kif` sees it, with what follows it.
proxy/precision_derivation.py lines 210-236. The first argument bounds the recursion; the graph has no cycles. -/
def PGraph.down : ℕ → PGraph → ℕ → Down
  | 0, _, _ => .other
  | fuel + 1, g, m =>
    match g.lay m with
    | some (.quant q _ _) => .quant q
    | some (.move true _ _) => .pass ((g.outs m).map (PGraph.down fuel g))
    | some (.concat _ _) => .pass ((g.outs m).map (PGraph.down fuel g))
    | _ => .other

/-- the layers downstream of position `n`. proxy/precision_derivation.py lines 193-203. -/
def PGraph.downs (g : PGraph) (n : ℕ) : List Down := (g.outs n).map (g.down g.length)

/-- whether the layer at position `n` is an `InputLayer`. proxy/precision_derivation.py line 294. -/
def PGraph.isInput (g : PGraph) (n : ℕ) : Bool :=
  match g.lay n with
  | some .input => true
  | _ => false

/-- whether the layer at position `n` is a `FixedPointQuantizer`. proxy/precision_derivation.py lines 378, 392, 403. -/
def PGraph.isQuant (g : PGraph) (n : ℕ) : Bool :=
  match g.lay n with
  | some (.quant _ _ _) => true
  | _ => false

/-- `get_result_kifRS` of the layer at position `n`; `none` is a failed assertion.
proxy/precision_derivation.py lines 289-302: the produced type is only asked for when nothing returned earlier. -/
def PGraph.result (g : PGraph) (n : ℕ) : Option KifRS × PGraph :=
  match fusibleResult (g.downs n) with
  | some r => (some r, g)
  | none =>
    if g.isInput n then (deriveFromNext (g.downs n), g)
    else
      let a := g.produced g.length n
      (some ⟨mergePrecision a.1 (requestList (a.2.downs n)), .TRN, .WRAP⟩, a.2)

/-- `get_config` of the layer at position `n`, with the graph left behind, also when it fails.
proxy/precision_derivation.py lines 350-371, with lines 305-327 and 330-347. -/
def PGraph.config (off : Option ℤ) (g : PGraph) (n : ℕ) : Except String Conf × PGraph :=
  let r := g.result n
  match r.1 with
  | none => (.error "assertion", r.2)
  | some t =>
    match g.lay n with
    | some (.linear kernel _ _ _ _ _) =>
      let a := r.2.produced g.length n
      (checkConf (linConf (linTypes t a.1 (arrContainer kernel) off)), a.2)
    | some (.act true fn _) =>
      let a := r.2.inputKifs n
      (checkConf (tableConf fn t (kifMax a.1)), a.2)
    | some (.softmax true _) =>
      let a := r.2.inputKifs n
      (checkConf (tableConf .other t (kifMax a.1)), a.2)
    | _ => (checkConf (plainConf t), r.2)

/-- `_get_next_quantizer`. proxy/precision_derivation.py lines 374-383; the first argument bounds the recursion. -/
def PGraph.nextQ : ℕ → PGraph → ℕ → Option ℕ
  | 0, _, _ => none
  | fuel + 1, g, n => (g.outs n).findSome? fun m => if g.isQuant m then some m else PGraph.nextQ fuel g m

/-- `_get_last_quantizer`. proxy/precision_derivation.py lines 386-398; the first argument bounds the recursion. -/
def PGraph.lastQ : ℕ → PGraph → ℕ → Option ℕ
  | 0, _, _ => none
  | fuel + 1, g, n => (g.ins n).findSome? fun m => if g.isQuant m then some m else PGraph.lastQ fuel g m

/-- `get_whatever_quantizer`, `none` when its assertion fails. proxy/precision_derivation.py lines 401-409. -/
def PGraph.whateverQ (g : PGraph) (n : ℕ) : Option ℕ :=
  if g.isQuant n then some n
  else match g.nextQ g.length n with
    | some m => some m
    | none => g.lastQ (n + 1) n

/-- A proxy model during registration: its layers and, for each quantizer, the entries written into
`overrides['layers']`, in order. A layer name is the position of the layer (names are unique in a proxy model), a
quantizer is named by its position. proxy/precision_derivation.py lines 418-419. -/
structure Registry where
  graph : PGraph
  written : List (ℕ × ℕ × Conf)

/-- `register_qconf` of the layer at position `n`: the outcome and the registry left behind.
proxy/precision_derivation.py lines 412-419. -/
def register (off : Option ℤ) (s : Registry) (n : ℕ) : Except String Unit × Registry :=
  match s.graph.lay n with
  | some (.lut _) => (.ok (), s)
  | _ =>
    match s.graph.whateverQ n with
    | none => (.error "no quantizer before or after it", s)
    | some q =>
      let c := s.graph.config off n
      match c.1 with
      | .error e => (.error e, { s with graph := c.2 })
      | .ok conf => (.ok (), ⟨c.2, s.written ++ [(q, n, conf)]⟩)

/-- `for layer in proxy.layers: register_qconf(layer, ...)`, proxy/convert.py lines 374-376; `ns` is the order of
`proxy.layers`. The first exception ends the loop. -/
def registerAll (off : Option ℤ) : List ℕ → Registry → Except String Unit × Registry
  | [], s => (.ok (), s)
  | n :: ns, s =>
    let r := register off s n
    match r.1 with
    | .error e => (.error e, r.2)
    | .ok () => registerAll off ns r.2

end HGQ
