import Verif.Model.Precision
import Verif.Model.Proxy

/-!
The bit counts of the proxy quantizers with 8-bit arithmetic. Elsewhere in the model they are integers; here every stored count and every
sum of two stored counts is reduced to a signed byte, as NumPy and TensorFlow do.
-/

namespace HGQ

/-- the signed byte congruent to `z` modulo 256: `astype(np.int8)` and int8 addition.
quantizer/quantizer.py lines 264-265, proxy/fixed_point_quantizer.py lines 154-167. -/
def wrap8 (z : ℤ) : ℤ := (z + 128) % 256 - 128

/-- `HGQ.get_bits_exact` with `ref=None`, quantizer/quantizer.py lines 250-266, with the cast of line 264 and the int8 sum of line 265.
(A float outside the int8 range has no defined int8 value in C; modelled as reduction modulo 256.) -/
def bitsExact8 (mn mx fbw : ℚ) (posOnly : Bool) : KIF :=
  let f := tfRound fbw
  let k : ℤ := if posOnly then 0 else if mn < 0 then 1 else 0
  let i := if posOnly then (floorLog2 (max mx 0)).map (· + 1) else max (ceilLog2 |mn|) (ceilLog2 |mx + p2 (-f)|)
  let k8 := wrap8 k
  let i8 := wrap8 (clipBits i (-f - k))
  let f8 := wrap8 f
  let mask := if wrap8 (wrap8 (k8 + i8) + f8) ≠ 0 then 1 else 0
  ⟨wrap8 (k8 * mask), wrap8 (i8 * mask), wrap8 (f8 * mask)⟩

/-- `k, b, i = k, k + i + f, k + i` on int8 arrays, proxy/convert.py line 271, and the constructor of `FixedPointQuantizer`,
proxy/fixed_point_quantizer.py lines 150-167. -/
def proxyQ8 (b : KIF) : KBI := KBI.init b.k (wrap8 (wrap8 (b.k + b.i) + b.f)) (wrap8 (b.k + b.i))

/-- `FixedPointQuantizer.result_t_kif` with int8 subtraction, proxy/fixed_point_quantizer.py lines 184-188. -/
def FPQ.kif8 (q : FPQ) : KIF :=
  ⟨listMax (q.elems.map fun e => e.keepNegative), listMax (q.elems.map fun e => wrap8 (e.integers - e.keepNegative)),
   listMax (q.elems.map fun e => wrap8 (e.bits - e.integers))⟩

/-- `get_produced_kif` of a `FixedPointQuantizer`, proxy/precision_derivation.py lines 88-105, where the arguments of the three `assign`
are reduced to bytes. (Depending on which operand of `min` is taken, NumPy adds in int8 or int64 here; the reduction after each sum gives
the byte in both cases.) -/
def FPQ.produced8 (q : FPQ) (inp : KIF) : KIF × FPQ :=
  let o := q.kif8
  let k := min inp.k o.k
  let i0 := min inp.i o.i
  let f := min inp.f o.f
  let i := if inp.i ≤ o.i ∧ inp.f > f then i0 + 1 else i0
  let q' := if k ≠ o.k ∨ i ≠ o.i ∨ f ≠ o.f then
      { q with elems := q.elems.map fun e =>
          { keepNegative := min e.keepNegative (wrap8 k), bits := min e.bits (wrap8 (wrap8 (k + i) + f)),
            integers := min e.integers (wrap8 (k + i)) } }
    else q
  (⟨k, i, f⟩, q')

/-- a sequence of precision queries to one quantizer: the answers and the quantizer afterwards. Each use of the quantizer's type by a
layer behind it is one such query, proxy/precision_derivation.py lines 65-75 and 88-105. -/
def FPQ.queries8 (q : FPQ) : List KIF → List KIF × FPQ
  | [] => ([], q)
  | t :: ts => let r := q.produced8 t; let s := FPQ.queries8 r.2 ts; (r.1 :: s.1, s.2)

/-- the same sequence with integers of any size. proxy/precision_derivation.py lines 65-75 and 88-105. -/
def FPQ.queries (q : FPQ) : List KIF → List KIF × FPQ
  | [] => ([], q)
  | t :: ts => let r := q.produced t; let s := FPQ.queries r.2 ts; (r.1 :: s.1, s.2)

end HGQ
