import Verif.Model.Float32
import Verif.Model.FixedPoint
import Verif.Model.Quantizer

/-!
The quantizers as evaluated in float32: every addition, subtraction, multiplication and division is followed by a rounding `fl`, a
parameter of all definitions. `fl32` is the rounding to the nearest float32 number without limits on the exponent; other choices treat
subnormal numbers and overflow in other ways (`Verif/Spec/Float32.lean`). `floor`, `round`, `abs`, `sign`, comparisons, negation and
clipping introduce no rounding. `floormod` is exact up to one rounding (`fmod` is exact; a divisor may be added to it).
-/

namespace HGQ

/-- the functions of `RND_MAP` in float32, fixed_point_quantizer.py lines 13-49 -/
def rndMapF (fl : ℚ → ℚ) : Rnd → ℚ → ℚ
  | .TRN, x => flr x
  | .RND, x => flr (fl (x + 1 / 2))
  | .RND_CONV, x => tfRound x
  | .TRN_ZERO, x => fl (flr |x| * tfSign x)
  | .RND_ZERO, x => fl (-(flr (fl (-|x| + 1 / 2)) : ℚ) * tfSign x)
  | .RND_MIN_INF, x => -(flr (fl (-x + 1 / 2)) : ℚ)
  | .RND_INF, x => fl (flr (fl (|x| + 1 / 2)) * tfSign x)

/-- `2**(b - k) - 1` in float32. proxy/fixed_point_quantizer.py lines 55, 63, 72, 80, 88. -/
def highF (fl : ℚ → ℚ) (k b : ℤ) : ℚ := fl (fl (p2 (b - k)) - 1)

/-- the functions of `SAT_MAP` in float32, fixed_point_quantizer.py lines 52-92; `k` and `b` are small integers -/
def satMapF (fl : ℚ → ℚ) : Sat → ℚ → ℤ → ℤ → ℚ
  | .SAT, x, k, b =>
    let high := highF fl k b
    let low := fl (-(fl (high + 1)) * k)
    clipByValue x low high
  | .SAT_ZERO, x, k, b =>
    let high := highF fl k b
    let low := fl (fl (-high - 1) * k)
    fl (x * (if x ≤ high ∧ low ≤ x then 1 else 0))
  | .SAT_SYM, x, k, b =>
    let high := highF fl k b
    let low := fl (-high * k)
    clipByValue x low high
  | .WRAP, x, k, b =>
    let high := highF fl k b
    let low := fl (-(fl (high + 1)) * k)
    fl (fl (floorMod (fl (x - low)) (fl (fl (high - low) + 1))) + low)
  | .WRAP_SM, x, k, b =>
    let high := highF fl k b
    let low := fl (-(fl (high + 1)) * k)
    let interval := fl (fl (fl (high - low) + 1) * 2)
    let mapped := fl (floorMod (fl (fl (x - high) - 1)) interval)
    fl (fl (|fl (fl (mapped - fl (interval / 2)) + 1 / 2)| - 1 / 2) + low)

/-- `gfixed_quantizer` in float32, fixed_point_quantizer.py lines 114-129, one element -/
def gfixedQuantizerF (fl : ℚ → ℚ) (x : ℚ) (keepNegative bits integerBits : ℤ) (R : Rnd) (S : Sat) : ℚ :=
  let scale := p2 (bits - integerBits)
  let scaledInput := fl (x * scale)
  let quantized := satMapF fl S (rndMapF fl R scaledInput) keepNegative bits
  fl (fl (quantized / scale) * (if bits ≠ 0 then 1 else 0))

/-- `HGQ.forward` with `training` falsy in float32, quantizer.py lines 145-168, one element -/
def evalQF (fl : ℚ → ℚ) (strategy : ℤ) (fbw x : ℚ) : ℚ :=
  let scale := p2 (tfRound fbw)
  let s := fl (x * scale)
  let xq := fl ((if strategy = 3 then (flr s : ℚ) else flr (fl (s + 1 / 2))) / scale)
  fl (x + fl (xq - x))

/-- a way to accumulate the products of `tf.matmul` / `convolution_op` (dense.py lines 48-72, conv.py lines 83-127): single products,
additions of two partial results, fused multiply-add. TensorFlow does not specify which one is used. -/
inductive Acc (α : Type) : Type
  | zero
  | mul (a : α)
  | add (l r : Acc α)
  | fma (a : α) (l : Acc α)

namespace Acc
variable {α : Type}

/-- the terms accumulated.
The products summed by `tf.matmul` / `tf.nn.convolution`, layers/dense.py line 65, layers/conv.py lines 92-100. -/
def terms : Acc α → List α
  | zero => []
  | mul a => [a]
  | add l r => l.terms ++ r.terms
  | fma a l => a :: l.terms

/-- the result in float32; `x`, `w` the two factors of a term.
`tf.matmul` / `tf.nn.convolution`, layers/dense.py line 65, layers/conv.py lines 92-100. -/
def runF (fl : ℚ → ℚ) (x w : α → ℚ) : Acc α → ℚ
  | zero => 0
  | mul a => fl (x a * w a)
  | add l r => fl (l.runF fl x w + r.runF fl x w)
  | fma a l => fl (x a * w a + l.runF fl x w)

end Acc

end HGQ
