import Verif.Model.Num

/-!
Model of `/repo/src/HGQ/proxy/fixed_point_quantizer.py`.
-/

namespace HGQ

/-- Keys of `RND_MAP`, fixed_point_quantizer.py lines 95-103. -/
inductive Rnd | TRN | RND | RND_CONV | TRN_ZERO | RND_ZERO | RND_MIN_INF | RND_INF
  deriving DecidableEq, Repr

/-- Keys of `SAT_MAP`, fixed_point_quantizer.py lines 105-111. -/
inductive Sat | SAT | SAT_ZERO | SAT_SYM | WRAP | WRAP_SM
  deriving DecidableEq, Repr

/-- `TRN`, fixed_point_quantizer.py lines 13-15. -/
def rndTRN (x : ℚ) : ℚ := flr x

/-- `RND`, fixed_point_quantizer.py lines 18-21. -/
def rndRND (x : ℚ) : ℚ := flr (x + 1 / 2)

/-- `RND_CONV`, fixed_point_quantizer.py lines 24-26. -/
def rndCONV (x : ℚ) : ℚ := tfRound x

/-- `TRN_ZERO`, fixed_point_quantizer.py lines 29-32. -/
def rndTRNZERO (x : ℚ) : ℚ := flr |x| * tfSign x

/-- `RND_ZERO`, fixed_point_quantizer.py lines 35-38. -/
def rndZERO (x : ℚ) : ℚ := -(flr (-|x| + 1 / 2) : ℚ) * tfSign x

/-- `RND_MIN_INF`, fixed_point_quantizer.py lines 41-43. -/
def rndMININF (x : ℚ) : ℚ := -(flr (-x + 1 / 2) : ℚ)

/-- `RND_INF`, fixed_point_quantizer.py lines 46-49. -/
def rndINF (x : ℚ) : ℚ := flr (|x| + 1 / 2) * tfSign x

/-- `RND_MAP[RND]`, fixed_point_quantizer.py lines 95-103 and 127. -/
def rndMap : Rnd → ℚ → ℚ
  | .TRN => rndTRN
  | .RND => rndRND
  | .RND_CONV => rndCONV
  | .TRN_ZERO => rndTRNZERO
  | .RND_ZERO => rndZERO
  | .RND_MIN_INF => rndMININF
  | .RND_INF => rndINF

/-- `SAT`, fixed_point_quantizer.py lines 52-57. `k`, `b` are integer-valued floats in the code. -/
def satSAT (x : ℚ) (k b : ℤ) : ℚ :=
  let high := p2 (b - k) - 1
  let low := -(high + 1) * k
  clipByValue x low high

/-- `SAT_ZERO`, fixed_point_quantizer.py lines 60-66. -/
def satZERO (x : ℚ) (k b : ℤ) : ℚ :=
  let high := p2 (b - k) - 1
  let low := (-high - 1) * k
  x * (if x ≤ high ∧ low ≤ x then 1 else 0)

/-- `SAT_SYM`, fixed_point_quantizer.py lines 69-74. -/
def satSYM (x : ℚ) (k b : ℤ) : ℚ :=
  let high := p2 (b - k) - 1
  let low := -high * k
  clipByValue x low high

/-- `WRAP`, fixed_point_quantizer.py lines 77-82. -/
def satWRAP (x : ℚ) (k b : ℤ) : ℚ :=
  let high := p2 (b - k) - 1
  let low := -(high + 1) * k
  floorMod (x - low) (high - low + 1) + low

/-- `WRAP_SM`, fixed_point_quantizer.py lines 85-92 (casts between float types are identities here). -/
def satWRAPSM (x : ℚ) (k b : ℤ) : ℚ :=
  let high := p2 (b - k) - 1
  let low := -(high + 1) * k
  let interval := (high - low + 1) * 2
  let mapped := floorMod (x - high - 1) interval
  |mapped - interval / 2 + 1 / 2| - 1 / 2 + low

/-- `SAT_MAP[SAT]`, fixed_point_quantizer.py lines 105-111 and 127. -/
def satMap : Sat → ℚ → ℤ → ℤ → ℚ
  | .SAT => satSAT
  | .SAT_ZERO => satZERO
  | .SAT_SYM => satSYM
  | .WRAP => satWRAP
  | .WRAP_SM => satWRAPSM

/-- `gfixed_quantizer`, fixed_point_quantizer.py lines 114-129, for one tensor element.
`keep_negative`, `bits`, `integer_bits` are int8 values in the code; here arbitrary integers. -/
def gfixedQuantizer (x : ℚ) (keepNegative bits integerBits : ℤ) (R : Rnd) (S : Sat) : ℚ :=
  let floatBits := bits - integerBits
  let scale := p2 floatBits
  let scaledInput := x * scale
  let quantized := satMap S (rndMap R scaledInput) keepNegative bits
  quantized / scale * (if bits ≠ 0 then 1 else 0)

/-- One element of the stored state of a `FixedPointQuantizer`.
proxy/fixed_point_quantizer.py lines 165-167. -/
structure KBI where
  keepNegative : ℤ
  bits : ℤ
  integers : ℤ
  deriving DecidableEq, Repr

/-- `FixedPointQuantizer.__init__`, fixed_point_quantizer.py lines 149-168: where `bits == 0` the sign and
integer bits are stored as 0. Element-wise. -/
def KBI.init (k b i : ℤ) : KBI :=
  if b = 0 then ⟨0, b, 0⟩ else ⟨k, b, i⟩

/-- `FixedPointQuantizer.call`, fixed_point_quantizer.py lines 178-182, one element, `training` falsy. -/
def KBI.apply (q : KBI) (R : Rnd) (S : Sat) (x : ℚ) : ℚ :=
  gfixedQuantizer x q.keepNegative q.bits q.integers R S

/-- maximum of a non-empty list, `np.max` / `tf.reduce_max`.
proxy/fixed_point_quantizer.py lines 187 and 202. -/
def listMax : List ℤ → ℤ
  | [] => 0
  | [a] => a
  | a :: l => max a (listMax l)

/-- `FixedPointQuantizer.result_t_kif`, fixed_point_quantizer.py lines 184-188. -/
def resultTKif (qs : List KBI) : ℤ × ℤ × ℤ :=
  (listMax (qs.map fun q => q.keepNegative),
   listMax (qs.map fun q => q.integers - q.keepNegative),
   listMax (qs.map fun q => q.bits - q.integers))

/-- `FixedPointQuantizer.heterogeneous`, fixed_point_quantizer.py lines 200-209. -/
def heterogeneous (qs : List KBI) : Bool :=
  let k0 := listMax (qs.map (·.keepNegative))
  let b0 := listMax (qs.map (·.bits))
  let i0 := listMax (qs.map (·.integers))
  if ¬ (qs.all fun q => q.keepNegative == k0) then true
  else if ¬ (qs.all fun q => q.bits == b0) then true
  else if ¬ (qs.all fun q => q.integers == i0) then true
  else false

end HGQ
