import Verif.Model.Bops
import Verif.Model.Dual

/-!
Gradients of the loss terms that depend on bitwidths: the BOPs term added by dense and convolution layers and the regularizer
`MonoL1` of the bitwidths. Forward-mode dual numbers as in `Verif/Model/Dual.lean`: `d` is the derivative with respect to one chosen
variable (one element of one bitwidth tensor, or one weight).
-/

namespace HGQ

open Dual

/-- `tf.nn.relu`: its gradient is 1 where the argument is positive and 0 elsewhere.
layers/base.py lines 165, 173, 190. -/
def reluD (x : Dual) : Dual := if 0 < x.v then x else const 0

/-- `tf.nn.relu(int_bits + fp_bits + kn)` and `scale_grad`, base.py lines 165-166, 173-174, 187-191. `int_bits` comes from `tf.floor`, `kn` from a
comparison: neither has a gradient. `int_bits = -inf` (`⊥`) gives 0 without gradient. `sd` is `tf.sqrt(1. / degeneracy)`. -/
def bwD (i : WithBot ℤ) (kn : ℤ) (fbw : Dual) (sd : ℚ) : Dual :=
  match i with
  | ⊥ => const 0
  | (n : ℤ) => scaleGradD (reluD (add (add (const n) (fpBitsD fbw)) (const kn))) sd

/-- `_kernel_bw` of one quantized weight `w`, base.py lines 169-175 -/
def kernelBwD (w fbw : Dual) (sd : ℚ) : Dual := bwD (bitsApproxRef w.v fbw.v).1 0 fbw sd

/-- `act_bw` of one element, base.py lines 183-192; the recorded extrema are variables without gradient -/
def actBwD (mn mx : ℚ) (fbw : Dual) (relu : Bool) (sd : ℚ) : Dual :=
  let b := bitsApprox mn mx fbw.v relu
  bwD b.1 (if relu then 0 else b.2.2) fbw sd

/-- `act_bw` of a layer with a quantizer. `fbwD e`: derivative of its bitwidth `e`.
layers/base.py lines 183-192. -/
def QSite.actBwD (q : QSite) (posOnly : Bool) (s : QState) (fbwD : ℕ → ℚ) (sd : ℚ) : List Dual :=
  (List.range (prodL q.outShape)).map fun p =>
    HGQ.actBwD ((s.mn (q.elem p)).untopD 0) ((s.mx (q.elem p)).unbotD 0) ⟨s.fbw (q.elem p), fbwD (q.elem p)⟩ posOnly sd

/-- `_kernel_bw` of all weights. `wD j`, `fbwD j`: derivatives of the quantized weight `j` and of its bitwidth.
layers/base.py lines 169-175. -/
def LinLayer.kernelBwD (L : LinLayer) (nWeights : ℕ) (wD fbwD : ℕ → ℚ) (sd : ℚ) : List Dual :=
  (List.range nWeights).map fun j => HGQ.kernelBwD ⟨L.qkernel j, wD j⟩ ⟨L.kq.clip (L.kfbw j), fbwD j⟩ sd

/-- `tf.reduce_sum`. layers/dense.py line 55, layers/conv.py line 109. -/
def sumD (l : List Dual) : Dual := l.foldr add (const 0)

/-- `tf.reduce_sum(tf.matmul(input_bw, kernel_bw))`, dense.py line 55, conv.py line 109 -/
def LinLayer.mulD (L : LinLayer) (inBw kBw : List Dual) : Dual :=
  sumD ((List.range (prodL L.outShape)).map fun p =>
    sumD ((L.taps p).map fun ij => mul (inBw.getD ij.1 (const 0)) (kBw.getD ij.2 (const 0))))

/-- the loss a layer adds, dense.py lines 52-58, conv.py lines 106-113; `kBw` is `_kernel_bw` -/
def LinLayer.bopsLossD (L : LinLayer) (rule : BopsRule) (beta : ℚ) (inBw kBw : List Dual) : Dual :=
  match rule with
  | .dense _ => mul (L.mulD inBw kBw) (const beta)
  | .conv _ pf => mul (div (mul (L.mulD inBw kBw) (const pf)) (const (prodL L.outShape.dropLast))) (const beta)
  | .none => const 0

/-- `MonoL1(l1)`, utils.py lines 10-16: refuses negative strengths; the regularization term for a tensor of bitwidths -/
def monoL1 (l1 : ℚ) (fbw : List Dual) : Except String Dual :=
  if ¬ 0 ≤ l1 then .error "l1 must be non-negative" else .ok (mul (sumD fbw) (const l1))

end HGQ
