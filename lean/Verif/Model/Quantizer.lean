import Verif.Model.Num

/-!
Model of `/repo/src/HGQ/quantizer/quantizer.py` (class `HGQ` and its helpers).

Random numbers drawn by `tf.random.uniform` are explicit arguments (`noise`). A tensor is a batch
(list) of flat samples; `elem p` is the quantizer element that position `p` of a sample uses, which is
what broadcasting the bitwidth tensor against the sample does.
-/

namespace HGQ

/-- `strategy_dict.get(name, -1)` and the isinstance test of quantizer.py line 65, with
utils.py lines 70-75. Names not in the dict (e.g. `'auto'`) give -1. -/
def strategyCode (name : String) : ℤ :=
  if name = "standard_round" then 0
  else if name = "stochastic_round" then 1
  else if name = "fast_uniform_noise_injection" then 2
  else if name = "floor" then 3
  else -1

/-- `q_round`, quantizer.py lines 13-36, one element. `noise` is the uniform random number:
in `[0,1)` for strategy 1, in `[-0.5,0.5)` for strategy 2. -/
def qRound (x : ℚ) (strategy : ℤ) (noise : ℚ) : Except String ℚ :=
  if strategy = 0 then .ok (flr (x + 1 / 2))
  else if strategy = 1 then
    let fl := flr x
    .ok (if noise < x - fl then (fl : ℚ) + 1 else fl)
  else if strategy = 2 then
    let noise := if |x| ≤ 1 / 2 then -x else noise
    .ok (noise + x)
  else if strategy = 3 then .ok (flr x)
  else .error "Unknown strategy"

/-- Immutable configuration of a quantizer, quantizer.py lines 61-79.
`pow2` is `tf.pow(2, ·)` at non-integer exponents (irrational in general, hence a parameter; used only in
training with `exact_q_value=False`), `ln2` the float constant of line 10. -/
structure QConf where
  strategy : ℤ
  exactQValue : Bool
  bwClip : Option (ℚ × ℚ)
  pow2 : ℚ → ℚ
  ln2 : ℚ

/-- the `scale` of `HGQ.forward` / `bias_forward`, quantizer.py lines 152-155 and 193-196. -/
def QConf.scale (c : QConf) (fbw : ℚ) (training : Bool) : ℚ :=
  if c.exactQValue || !training then p2 (tfRound fbw) else c.pow2 fbw

/-- the strategy actually used, quantizer.py lines 157-159 and 198-200. -/
def QConf.effStrategy (c : QConf) (training : Bool) : ℤ :=
  if !training ∧ c.strategy ≠ 3 then 0 else c.strategy

/-- The value computed by `HGQ.forward` (quantizer.py lines 146-169) for one element; also the value
computed by `HGQ.bias_forward` (lines 193-209) when `fbw` is the per-channel maximum.
`stop_gradient` is the identity on values. -/
def QConf.forward (c : QConf) (fbw x noise : ℚ) (training : Bool) : Except String ℚ := do
  let scale := c.scale fbw training
  let r ← qRound (x * scale) (c.effStrategy training) noise
  let xq := r / scale
  let delta := xq - x
  if training then
    let prod := delta * fbw * c.ln2
    let delta := (delta + prod) - prod
    return x + delta
  else
    return x + delta

/-- `tf.clip_by_value(self.fbw, *self.bw_clip)` if `bw_clip` is truthy, quantizer.py lines 141-142. -/
def QConf.clip (c : QConf) (fbw : ℚ) : ℚ :=
  match c.bwClip with
  | none => fbw
  | some (lo, hi) => clipByValue fbw lo hi

/-- Mutable state of a quantizer: bitwidths and recorded extrema per element
(`+inf`/`-inf` are `⊤`/`⊥`), quantizer.py lines 104-109. -/
structure QState where
  fbw : ℕ → ℚ
  mn : ℕ → WithTop ℚ
  mx : ℕ → WithBot ℚ

/-- `minmax_reg_reset`, quantizer.py lines 129-135. -/
def QState.reset (s : QState) : QState := { s with mn := fun _ => ⊤, mx := fun _ => ⊥ }

/-- All `(element, value)` pairs of a batch.
The entries reduced at quantizer/quantizer.py lines 170-174. -/
def batchPairs (elem : ℕ → ℕ) (xs : List (List ℚ)) : List (ℕ × ℚ) :=
  xs.flatMap fun s => s.zipIdx.map fun vp => (elem vp.2, vp.1)

/-- `tf.reduce_min(xq, axis=skip_dims)` at element `e` (`+inf` over an empty batch), line 171. -/
def reduceMin (e : ℕ) (ps : List (ℕ × ℚ)) : WithTop ℚ :=
  ((ps.filter (fun p => p.1 = e)).map (fun p => (p.2 : WithTop ℚ))).foldr min ⊤

/-- `tf.reduce_max(xq, axis=skip_dims)` at element `e`, line 172. -/
def reduceMax (e : ℕ) (ps : List (ℕ × ℚ)) : WithBot ℚ :=
  ((ps.filter (fun p => p.1 = e)).map (fun p => (p.2 : WithBot ℚ))).foldr max ⊥

/-- the recording part of `HGQ.forward`, quantizer.py lines 169-177. The shape bookkeeping of the
reduction is modelled separately in `Verif/Model/Shape.lean`. -/
def QState.record (s : QState) (elem : ℕ → ℕ) (xq : List (List ℚ)) : QState :=
  let ps := batchPairs elem xq
  { s with
    mn := fun e => min (reduceMin e ps) (s.mn e)
    mx := fun e => max (reduceMax e ps) (s.mx e) }

/-- `HGQ.forward` on a batch: sample `b`, position `p` uses random number `noise b p`.
quantizer/quantizer.py lines 145-179. -/
def QConf.forwardBatch (c : QConf) (elem : ℕ → ℕ) (fbw : ℕ → ℚ) (noise : ℕ → ℕ → ℚ) (training : Bool)
    (xs : List (List ℚ)) : Except String (List (List ℚ)) :=
  xs.zipIdx.mapM fun sb => sb.1.zipIdx.mapM fun vp =>
    c.forward (fbw (elem vp.2)) vp.1 (noise sb.2 vp.2) training

/-- `HGQ.__call__`, quantizer.py lines 137-143 followed by `forward`, lines 145-179. -/
def QConf.call (c : QConf) (elem : ℕ → ℕ) (s : QState) (noise : ℕ → ℕ → ℚ) (training record : Bool)
    (xs : List (List ℚ)) : Except String (QState × List (List ℚ)) := do
  let s := { s with fbw := fun e => c.clip (s.fbw e) }
  let xq ← c.forwardBatch elem s.fbw noise training xs
  if record then return (s.record elem xq, xq) else return (s, xq)

/-- `HGQ.forward` with `training` falsy, quantizer.py lines 145-168, one element. Inference never raises
and ignores the noise; `C11_inference_total` shows this equals `QConf.forward` with `training := false`. -/
def evalQ (strategy : ℤ) (fbw x : ℚ) : ℚ :=
  let scale := p2 (tfRound fbw)
  let xq := (if strategy = 3 then (flr (x * scale) : ℚ) else flr (x * scale + 1 / 2)) / scale
  x + (xq - x)

/-! ### Bit counting -/

/-- `np.floor(np.log2(x))` for `x ≥ 0`; `log2 0 = -inf`. quantizer/quantizer.py line 256. -/
def floorLog2 (x : ℚ) : WithBot ℤ := if x = 0 then ⊥ else (Int.log 2 x : ℤ)

/-- `np.ceil(np.log2(x))` for `x ≥ 0`; `log2 0 = -inf`. quantizer/quantizer.py lines 259-260. -/
def ceilLog2 (x : ℚ) : WithBot ℤ := if x = 0 then ⊥ else (Int.clog 2 x : ℤ)

/-- `np.clip(i, lo, 32)` = `minimum(maximum(i, lo), 32)`; `i` may be `-inf`.
quantizer/quantizer.py line 263. -/
def clipBits (i : WithBot ℤ) (lo : ℤ) : ℤ :=
  match i with
  | ⊥ => min lo 32
  | (n : ℤ) => min (max n lo) 32

/-- (keep_negative, integer bits without sign, fractional bits).
Returned at quantizer/quantizer.py lines 266 and 272. -/
structure KIF where
  k : ℤ
  i : ℤ
  f : ℤ
  deriving DecidableEq, Repr

/-- `k * mask, i * mask, f * mask` with `mask = k + i + f != 0`, quantizer.py lines 265-266. -/
def maskKif (k i f : ℤ) : KIF :=
  let mask := if k + i + f ≠ 0 then 1 else 0
  ⟨k * mask, i * mask, f * mask⟩

/-- `HGQ.get_bits_exact` with `ref=None`, quantizer.py lines 250-266, one element whose recorded
extrema are finite. -/
def bitsExact (mn mx fbw : ℚ) (posOnly : Bool) : KIF :=
  let f := tfRound fbw
  if posOnly then
    let i := (floorLog2 (max mx 0)).map (· + 1)
    let k : ℤ := 0
    maskKif k (clipBits i (-f - k)) f
  else
    let iNeg := ceilLog2 |mn|
    let iPos := ceilLog2 |mx + p2 (-f)|
    let i := max iNeg iPos
    let k : ℤ := if mn < 0 then 1 else 0
    maskKif k (clipBits i (-f - k)) f

/-- the element-wise condition `_max - _min >= 0` of quantizer.py line 251; `-inf - inf` fails it. -/
def rangeOk : WithTop ℚ → WithBot ℚ → Bool
  | some lo, some hi => decide (0 ≤ hi - lo)
  | _, _ => false

/-- `HGQ.get_bits_exact` with `ref=None` on the whole quantizer with `n` elements: the assertion of line 251
(`max - min >= 0` everywhere; `-inf - inf` fails it), then `bitsExact` element-wise. -/
def QState.getBitsExact (s : QState) (n : ℕ) (posOnly : Bool) : Except String (ℕ → KIF) :=
  if (List.range n).all fun e => rangeOk (s.mn e) (s.mx e) then
    .ok fun e => bitsExact ((s.mn e).untopD 0) ((s.mx e).unbotD 0) (s.fbw e) posOnly
  else .error "Some min values are larger than max values. Did you forget to run trace_minmax?"

/-- `HGQ.get_bits` with `ref=None`, quantizer.py lines 219-241, one element with finite extrema, value only:
`(int_bits, fp_bits, kn)`. `tf.math.log(x)/log2` is taken exact. -/
def bitsApprox (mn mx fbw : ℚ) (posOnly : Bool) : WithBot ℤ × ℤ × ℤ :=
  let fp := tfRound fbw
  if posOnly then
    ((floorLog2 (max mx 0)).map (· + 1), fp, 0)
  else
    ((floorLog2 (max |mn| |mx|)).map (· + 1), fp, if mn < 0 then 1 else 0)

/-- `HGQ.get_bits(ref, quantized=True)`, quantizer.py lines 219-231 for one already quantized weight
(no `skip_dims`). -/
def bitsApproxRef (w fbw : ℚ) : WithBot ℤ × ℤ × ℤ :=
  ((floorLog2 |w|).map (· + 1), tfRound fbw, if w < 0 then 1 else 0)

/-- `tf.nn.relu(int_bits + fp_bits [+ kn])`, base.py lines 173 and 187-190; `relu(-inf) = 0`. -/
def reluBits (i : WithBot ℤ) (f : ℤ) : ℤ :=
  match i with
  | ⊥ => 0
  | (n : ℤ) => max (n + f) 0

/-- `HLayerBase.act_bw`, base.py lines 183-192, one element (`scale_grad` is the identity on values). -/
def actBw (mn mx fbw : ℚ) (relu : Bool) : ℤ :=
  let (i, f, kn) := bitsApprox mn mx fbw relu
  if relu then reluBits i f else reluBits i (f + kn)

/-- `HLayerBase.act_bw_exact`, base.py lines 194-199, one element. -/
def actBwExact (mn mx fbw : ℚ) (relu : Bool) : ℤ :=
  let b := bitsExact mn mx fbw relu
  b.i + b.f + b.k

/-- number of `j` in `1..n-1` with `2^j` dividing `arr` (`arr % 2**j == 0`), quantizer.py lines 46-47. -/
def countDiv (arr : ℚ) (n : ℕ) : ℕ :=
  ((List.range' 1 (n - 1)).filter fun (j : ℕ) => decide (floorMod arr (p2 j) = 0)).length

/-- `int(np.ceil(np.max(np.log2(arr + 1))))`, quantizer.py line 45. `fl` is the rounding of the float
addition `arr + 1` (`id` for exact arithmetic). Entries are non-negative, so the result is too. -/
def arrBitsN (fl : ℚ → ℚ) (arr : List ℚ) : ℕ :=
  (arr.map fun a => (Int.clog 2 (fl (a + 1))).toNat).foldr max 0

/-- `get_arr_bits`, quantizer.py lines 39-55: (sign, int_bits, frac_bits) per entry. -/
def getArrBits (fl : ℚ → ℚ) (arr : List ℚ) : List KIF :=
  let scaled := arr.map fun a => |a * p2 32|
  let n := arrBitsN fl scaled
  arr.map fun a =>
    let kn : ℤ := if a < 0 then 1 else 0
    let v := |a * p2 32|
    let lowPos : ℤ := countDiv v n + (if v = 1 then 1 else 0)
    let highPos : ℤ := if v ≠ 0 then Int.log 2 v + 1 else lowPos
    let fb := 32 - lowPos
    let intBits := highPos - lowPos - fb
    if intBits + fb = 0 then ⟨kn, 0, 0⟩ else ⟨kn, intBits, fb⟩

/-- `HGQ.get_bits_exact(ref)`, quantizer.py lines 268-272: quantize, count bits, mask. -/
def getBitsExactRef (fl : ℚ → ℚ) (strategy : ℤ) (ref : List (ℚ × ℚ)) : List KIF :=
  (getArrBits fl (ref.map fun wf => evalQ strategy wf.2 wf.1)).map fun b => maskKif b.k b.i b.f

end HGQ
