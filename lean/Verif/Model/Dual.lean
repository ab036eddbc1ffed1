import Verif.Model.Quantizer

/-!
Gradients. TensorFlow's automatic differentiation is modelled by forward-mode dual numbers:
`d` is the derivative of the value with respect to one chosen scalar parameter.
`tf.stop_gradient` zeroes `d`; `tf.floor`, `tf.round` have zero gradient.
-/

namespace HGQ

/-- value and derivative. The tensors of quantizer/quantizer.py lines 145-209 under `tf.GradientTape`. -/
structure Dual where
  v : ℚ
  d : ℚ
  deriving DecidableEq, Repr

namespace Dual

/-- product, quotient, sum rules. `+`, quantizer/quantizer.py lines 165, 168. -/
def add (a b : Dual) : Dual := ⟨a.v + b.v, a.d + b.d⟩
/-- `-`, quantizer/quantizer.py lines 162, 165. -/
def sub (a b : Dual) : Dual := ⟨a.v - b.v, a.d - b.d⟩
/-- `*`, quantizer/quantizer.py lines 160, 164; layers/base.py line 14. -/
def mul (a b : Dual) : Dual := ⟨a.v * b.v, a.d * b.v + a.v * b.d⟩
/-- `/`, quantizer/quantizer.py line 160. -/
def div (a b : Dual) : Dual := ⟨a.v / b.v, (a.d * b.v - a.v * b.d) / (b.v * b.v)⟩
/-- unary `-`, quantizer/quantizer.py line 32. -/
def neg (a : Dual) : Dual := ⟨-a.v, -a.d⟩
/-- `tf.constant`. quantizer/quantizer.py line 10. -/
def const (c : ℚ) : Dual := ⟨c, 0⟩
/-- `tf.stop_gradient`. quantizer/quantizer.py lines 33, 162, 165; layers/base.py line 15. -/
def stop (a : Dual) : Dual := ⟨a.v, 0⟩

end Dual

open Dual

/-- `q_round` with gradients, quantizer.py lines 13-36. -/
def qRoundD (x : Dual) (strategy : ℤ) (noise : ℚ) : Except String Dual :=
  if strategy = 0 then .ok (const (flr (x.v + 1 / 2)))
  else if strategy = 1 then
    let fl := flr x.v
    .ok (const (if noise < x.v - fl then (fl : ℚ) + 1 else fl))
  else if strategy = 2 then
    let noise : Dual := if |x.v| ≤ 1 / 2 then neg x else const noise
    .ok (add (stop noise) x)
  else if strategy = 3 then .ok (const (flr x.v))
  else .error "Unknown strategy"

/-- `HGQ.forward` with gradients, quantizer.py lines 145-169 (equally `bias_forward`, lines 193-209).
`scaleD` is the derivative of `tf.pow(two, fbw)` when `exact_q_value` is off (0 when it is on). -/
def QConf.forwardD (c : QConf) (scaleD : ℚ) (fbw x : Dual) (noise : ℚ) (training : Bool) : Except String Dual := do
  let scale : Dual := ⟨c.scale fbw.v training, if c.exactQValue || !training then 0 else scaleD⟩
  let r ← qRoundD (mul x scale) (c.effStrategy training) noise
  let xq := div r scale
  let delta := stop (sub xq x)
  if training then
    let prod := mul (mul delta fbw) (const c.ln2)
    let delta := sub (stop (add delta prod)) prod
    return add x delta
  else
    return add x delta

/-- `scale_grad`, base.py lines 11-15. -/
def scaleGradD (x : Dual) (scale : ℚ) : Dual :=
  let sx := mul x (const scale)
  add sx (stop (sub x sx))

/-- `fp_bits` in `HGQ.get_bits`, quantizer.py lines 219-220. -/
def fpBitsD (fbw : Dual) : Dual :=
  let fp := const (tfRound fbw.v)
  add fbw (stop (sub fp fbw))

end HGQ
