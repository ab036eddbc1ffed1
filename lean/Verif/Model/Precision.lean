import Verif.Model.Container
import Verif.Model.Proxy
import Verif.Model.Apf
import Mathlib.Data.Nat.Log

/-!
Model of the type derivation in `/repo/src/HGQ/proxy/precision_derivation.py`.

Python integers and NumPy integer scalars are `ℤ` (no int8 overflow: all widths are far below 127 in a proxy model
except the constant 65535, which only enters through `min` and through explicit Python integers).
`np.ceil(np.log2(n))` for a positive integer `n` is `Nat.clog 2 n`.
-/

namespace HGQ

/-- `np.max(kifs, axis=0)`. proxy/precision_derivation.py lines 117, 134, 155, 202, 218, 341. -/
def kifMax (l : List KIF) : KIF := ⟨listMax (l.map (·.k)), listMax (l.map (·.i)), listMax (l.map (·.f))⟩

/-- a built `FixedPointQuantizer`: its stored element types and its modes, fixed_point_quantizer.py lines 146-176 -/
structure FPQ where
  elems : List KBI
  rnd : Rnd
  sat : Sat
  deriving DecidableEq, Repr

/-- `layer.result_t_kif` as a triple. proxy/fixed_point_quantizer.py lines 184-188. -/
def FPQ.kif (q : FPQ) : KIF := let r := resultTKif q.elems; ⟨r.1, r.2.1, r.2.2⟩

/-- the quantizer's function on one value, at element `e`.
proxy/fixed_point_quantizer.py lines 178-182. -/
def FPQ.call (q : FPQ) (e : ℕ) (x : ℚ) : ℚ := (q.elems.getD e ⟨0, 0, 0⟩).apply q.rnd q.sat x

/-- `get_produced_kif` of a `FixedPointQuantizer` with upstream type `inp`, precision_derivation.py lines 88-105:
the returned type and the quantizer after the in-place shrinking of its variables. -/
def FPQ.produced (q : FPQ) (inp : KIF) : KIF × FPQ :=
  let o := q.kif
  let k := min inp.k o.k
  let i0 := min inp.i o.i
  let f := min inp.f o.f
  let i := if inp.i ≤ o.i ∧ inp.f > f then i0 + 1 else i0
  let q' := if k ≠ o.k ∨ i ≠ o.i ∨ f ≠ o.f then
      { q with elems := q.elems.map fun e =>
          { keepNegative := min e.keepNegative k, bits := min e.bits (k + i + f), integers := min e.integers (k + i) } }
    else q
  (⟨k, i, f⟩, q')

/-- the type of an input layer or an unknown layer, lines 81-85 and 185-187 -/
def infKif : KIF := ⟨1, 65535, 65535⟩

/-- softmax, lines 112-116 -/
def softmaxKif : KIF := ⟨0, 1, 65535⟩

/-- `get_produced_kif` of average pooling, lines 121-128; `n` is the product of the pool sizes. -/
def avgPoolKif (inp : KIF) (n : ℕ) : KIF := ⟨inp.k, inp.i, inp.f + Nat.clog 2 n⟩

/-- `get_produced_kif` of `Add` and `Subtract`, lines 131-137 -/
def addKif (ins : List KIF) : KIF := let m := kifMax ins; ⟨m.k, m.i + Nat.clog 2 ins.length, m.f⟩

/-- `get_produced_kif` of `Dot`, lines 140-149 -/
def dotKif (a b : KIF) : KIF := ⟨max a.k b.k, a.i + b.i, a.f + b.f⟩

/-- `get_produced_kif` of `Concatenate`, lines 152-156 -/
def concatKif (ins : List KIF) : KIF := kifMax ins

/-- `get_produced_kif` of `Dense`/`Conv`, lines 159-174. `kernel` are all kernel entries, `bias` the bias entries
(empty without bias), `div` the number of units or filters. -/
def linearKif (inp : KIF) (kernel bias : List ℚ) (div : ℕ) : KIF :=
  let w := arrContainer kernel
  ⟨if inp.k ≠ 0 ∨ w.k ≠ 0 ∨ bias.any (fun b => decide (b < 0)) then 1 else 0,
   inp.i + w.i + Nat.clog 2 (kernel.length / div), inp.f + w.f⟩

/-- layers downstream of a layer, as far as `get_request_kif` looks: quantizers, pass-through layers
(`Concatenate`, `Reshape`, `Flatten`) with their own downstream layers, and anything else.
The outbound layers read at proxy/precision_derivation.py lines 195, 214, 257, 274. -/
inductive Down
  | quant (q : FPQ)
  | pass (outs : List Down)
  | other

/-- `get_request_kif` of a `FixedPointQuantizer`, lines 223-236 -/
def FPQ.request (q : FPQ) : KIF :=
  let r := q.kif
  let f := match q.rnd with
    | .TRN => r.f + 0
    | .RND => r.f + 1
    | _ => r.f + 2
  let i := match q.sat with
    | .WRAP | .WRAP_SM => r.i
    | _ => 65535
  ⟨r.k, i, f⟩

mutual
/-- `get_request_kif`, lines 210-220 -/
def Down.request : Down → KIF
  | .quant q => q.request
  | .pass outs => requestList outs
  | .other => infKif
/-- `np.max([get_request_kif(l) for l in out_layers], axis=0)`, or the terminal value without downstream layers;
lines 193-203 and 214-219 -/
def requestList : List Down → KIF
  | [] => infKif
  | [d] => d.request
  | d :: ds => let a := d.request; let b := requestList ds; ⟨max a.k b.k, max a.i b.i, max a.f b.f⟩
end

/-- `merge_precision`, lines 242-252 -/
def mergePrecision (available request : KIF) : KIF :=
  let i := min available.i request.i
  ⟨available.k, if available.f > request.f ∧ available.i ≤ request.i then i + 1 else i,
    min available.f request.f⟩

/-- a type with its modes. proxy/precision_derivation.py lines 255-302. -/
structure KifRS where
  kif : KIF
  rnd : Rnd
  sat : Sat
  deriving DecidableEq, Repr

/-- `result_kifRS_layer_with_fusible_quantizer`, lines 255-268: exactly one downstream layer, a quantizer, and
`fusible` (fixed_point_quantizer.py lines 190-198; the other condition there is the same count). -/
def fusibleResult (outs : List Down) : Option KifRS :=
  match outs with
  | [.quant q] => if heterogeneous q.elems then none else some ⟨q.kif, q.rnd, q.sat⟩
  | _ => none

/-- the quantizers downstream, `none` if some layer is not a quantizer (line 275-276, the failed assertion) -/
def quantsOf : List Down → Option (List FPQ)
  | [] => some []
  | .quant q :: ds => (quantsOf ds).map (q :: ·)
  | _ :: _ => none

/-- extra fractional bits in `derive_result_kifRS_from_next_quantizers`, line 285 -/
def inputGuard (R : Rnd) : ℤ := 2 * (if R ≠ .TRN then 1 else 0) - 1 * (if R = .RND then 1 else 0)

/-- `derive_result_kifRS_from_next_quantizers`, lines 271-286. With no downstream layer `kifRSs.T` cannot be unpacked
into five rows; all failures are `none`. -/
def deriveFromNext (outs : List Down) : Option KifRS :=
  match quantsOf outs with
  | none => none
  | some [] => none
  | some (q :: qs) =>
    if qs.all (fun q' => q'.sat = q.sat) then
      let all := q :: qs
      some ⟨⟨listMax (all.map (·.kif.k)), listMax (all.map (·.kif.i)),
        listMax (all.map fun q => q.kif.f + inputGuard q.rnd)⟩, .TRN, q.sat⟩
    else none

/-- `get_result_kifRS`, lines 289-302 (`STREAM` is `False`). `produced` is `get_produced_kif(layer)`. -/
def resultKifRS (isInput : Bool) (produced : KIF) (outs : List Down) : Option KifRS :=
  match fusibleResult outs with
  | some r => some r
  | none =>
    if isInput then deriveFromNext outs
    else some ⟨mergePrecision produced (requestList outs), .TRN, .WRAP⟩

/-- printed name of a rounding mode.
Keys of `RND_MAP`, proxy/fixed_point_quantizer.py lines 95-103, printed at utils/utils.py lines 98-100. -/
def Rnd.str : Rnd → List Char
  | .TRN => "TRN".toList | .RND => "RND".toList | .RND_CONV => "RND_CONV".toList | .TRN_ZERO => "TRN_ZERO".toList
  | .RND_ZERO => "RND_ZERO".toList | .RND_MIN_INF => "RND_MIN_INF".toList | .RND_INF => "RND_INF".toList

/-- printed name of an overflow mode.
Keys of `SAT_MAP`, proxy/fixed_point_quantizer.py lines 105-111, printed at utils/utils.py line 100. -/
def Sat.str : Sat → List Char
  | .SAT => "SAT".toList | .SAT_ZERO => "SAT_ZERO".toList | .SAT_SYM => "SAT_SYM".toList | .WRAP => "WRAP".toList
  | .WRAP_SM => "WRAP_SM".toList

/-- types of a layer with a kernel (before printing). proxy/precision_derivation.py lines 311-326. -/
structure LinTypes where
  weight : KIF
  accum : KIF
  result : KifRS
  bias : KIF
  deriving DecidableEq, Repr

/-- `get_config_wight_accum_result_bias`, lines 305-327 -/
def linTypes (r : KifRS) (produced kernelT : KIF) (accumFpMaxOffset : Option ℤ) : LinTypes :=
  let aF := match accumFpMaxOffset with
    | none => produced.f
    | some o => min (r.kif.f + o) produced.f
  let accum : KIF := match r.sat with
    | .WRAP => ⟨r.kif.k, r.kif.i, aF⟩
    | _ => ⟨produced.k, produced.i, match accumFpMaxOffset with
      | none => aF
      | some o => min (o + r.kif.f) aF⟩
  { weight := kernelT, accum := accum, result := r, bias := accum }

/-- The configuration of a layer: named entries, each a printed type (`.inl`) or a plain integer (`table_size`).
proxy/precision_derivation.py lines 354, 357, 361. -/
abbrev Conf := List (String × (List Char ⊕ ℤ))

/-- the configuration dict of a layer with a kernel, lines 352-354 -/
def linConf (t : LinTypes) : Conf :=
  [("weight_t", .inl (tupleToApf t.weight)), ("accum_t", .inl (tupleToApf t.accum)),
   ("result_t", .inl (tupleToApf t.result.kif t.result.rnd.str t.result.sat.str)), ("bias_t", .inl (tupleToApf t.bias))]

/-- activations treated specially in `get_config_table_tablesize_result`.
proxy/precision_derivation.py lines 336, 343, 345. -/
inductive ActFn | tanh | sigmoid | other
  deriving DecidableEq, Repr

/-- `get_config_table_tablesize_result`, lines 330-347, and lines 355-357. `int(2**(i_k+i_i+i_f))`,
`int(8 / 2.**-i_f)`, `int(16 / 2.**-i_f)` truncate. -/
def tableConf (fn : ActFn) (r : KifRS) (inp : KIF) : Conf :=
  let full := tupleToApf r.kif r.rnd.str r.sat.str
  let res := match fn with
    | .other => full
    | _ => tupleToApf r.kif "TRN".toList "WRAP".toList
  let size : ℤ := match fn with
    | .other => ⌊p2 (inp.k + inp.i + inp.f)⌋
    | .tanh => ⌊8 / p2 (-inp.f)⌋
    | .sigmoid => ⌊16 / p2 (-inp.f)⌋
  [("table_t", .inl full), ("table_size", .inr size), ("result_t", .inl res)]

/-- the configuration of any other layer, lines 358-361 -/
def plainConf (r : KifRS) : Conf := [("result_t", .inl (tupleToApf r.kif r.rnd.str r.sat.str))]

/-- the check at the end of `get_config`, lines 363-371. `none` from `apfToTuple` is a failed assertion. -/
def checkConf : Conf → Except String Conf
  | [] => .ok []
  | (n, v) :: rest =>
    if n.endsWith "_t" then
      match v with
      | .inr _ => .error "should be a string"
      | .inl s => match apfToTuple s with
        | none => .error "unable to parse"
        | some t => if t.i + t.f > 64 then .error "huge bitwidth" else do
            let r ← checkConf rest
            return (n, v) :: r
    else do
      let r ← checkConf rest
      return (n, v) :: r

end HGQ
