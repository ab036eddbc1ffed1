import Verif.Model.Layer

/-!
Batch normalisation: the fused layers `HDenseBatchNorm`, `HConvBatchNorm` and the stand-alone `HBatchNormalization`.

Sources: `/repo/src/HGQ/layers/batchnorm_base.py`, `dense.py`, `conv.py`. `tf.math.rsqrt` is the field `rsqrt`, an
arbitrary function: no statement depends on its values.
-/

namespace HGQ

/-- `tf.math.reduce_mean` over a list of values.
layers/dense.py line 190, layers/conv.py line 372, layers/batchnorm_base.py line 191. -/
def meanL (l : List ℚ) : ℚ := l.sum / l.length

/-- `tf.math.reduce_variance` (population variance).
layers/dense.py line 194, layers/conv.py line 376, layers/batchnorm_base.py line 190. -/
def varL (l : List ℚ) : ℚ := meanL (l.map fun v => (v - meanL l) ^ 2)

/-- State of a fused batch-norm layer, batchnorm_base.py lines 10-94. `useBias` and `center` as after `_post_build`
(line 59-61: `center` is switched off without `use_bias`). Variables of a channel are functions of the channel;
`kchan j` is the output channel of kernel entry `j` (broadcasting of `kernel * scale` along the last kernel axis). -/
structure BNLayer where
  center : Bool
  scale : Bool
  useBias : Bool
  outShape : List ℕ
  chLoc : ChLoc
  taps : ℕ → List (ℕ × ℕ)
  kchan : ℕ → ℕ
  kernel : ℕ → ℚ
  bias : ℕ → ℚ
  gamma : ℕ → ℚ
  beta : ℕ → ℚ
  movingMean : ℕ → ℚ
  movingVar : ℕ → ℚ
  eps : ℚ
  momentum : ℚ
  rsqrt : ℚ → ℚ

namespace BNLayer

/-- variables created by `_post_build`, batchnorm_base.py lines 54-94: `center` needs a bias; without `center` both
`bn_beta` and `moving_mean` are 0, without `scale` both `bn_gamma` and `moving_variance` are 1. -/
def postBuild (b : BNLayer) : BNLayer :=
  let b := if b.center && !b.useBias then { b with center := false } else b
  let b := if b.center then b else { b with beta := fun _ => 0, movingMean := fun _ => 0 }
  if b.scale then b else { b with gamma := fun _ => 1, movingVar := fun _ => 1 }

/-- `fused_kernel`, batchnorm_base.py lines 96-102 -/
def fusedKernel (b : BNLayer) (j : ℕ) : ℚ :=
  if !b.scale then b.kernel j
  else b.kernel j * (b.gamma (b.kchan j) * b.rsqrt (b.movingVar (b.kchan j) + b.eps))

/-- `fused_bias`, batchnorm_base.py lines 104-110 -/
def fusedBias (b : BNLayer) (c : ℕ) : ℚ :=
  if !b.center then b.bias c
  else b.bias c - b.movingMean c * (b.gamma c * b.rsqrt (b.movingVar c + b.eps)) + b.beta c

/-- bias added by `jit_forward` at inference before quantization, dense.py lines 65-68 -/
def inferBias (b : BNLayer) (c : ℕ) : ℚ := if b.useBias then b.fusedBias c else 0

/-- channel of output position `p`. The axis kept at layers/batchnorm_base.py line 55. -/
def chan (b : BNLayer) (p : ℕ) : ℕ := chanOf b.outShape b.chLoc p

/-- `tf.matmul(x, k)` / `convolution_op(x, k)` at position `p`.
layers/dense.py lines 187 and 199, layers/conv.py lines 369 and 381. -/
def lin (b : BNLayer) (k : ℕ → ℚ) (x : List ℚ) (p : ℕ) : ℚ :=
  ((b.taps p).map fun ij => x.getD ij.1 0 * k ij.2).sum

/-- all values of channel `c` over a batch: what `reduce_mean(z, axis=_reduction_axis)` averages.
layers/dense.py lines 190-194, layers/conv.py lines 372-376, axes of layers/batchnorm_base.py line 55. -/
def chanVals (b : BNLayer) (k : ℕ → ℚ) (xs : List (List ℚ)) (c : ℕ) : List ℚ :=
  xs.flatMap fun x => ((List.range (prodL b.outShape)).filter fun p => decide (b.chan p = c)).map (b.lin k x)

/-- result of one training forward pass.
What layers/dense.py lines 179-211 and layers/conv.py lines 361-393 assign and return. -/
structure TrainOut where
  layer : BNLayer
  /-- argument of the kernel quantizer of the pass (`train_fused_kernel`, or the plain kernel without `scale`) -/
  kernel : ℕ → ℚ
  /-- argument of `bias_forward`, `none` if no bias is added -/
  bias : Option (ℕ → ℚ)

/-- `bn_train_jit_forward`, dense.py lines 179-211, conv.py lines 361-392. `qk` is the value of
`self.kq(self.kernel, training, False)`, used for the statistics only if `scale` is off. -/
def train (b : BNLayer) (qk : ℕ → ℚ) (xs : List (List ℚ)) : TrainOut :=
  let k0 := if b.scale then b.kernel else qk
  let mean := fun c => meanL (b.chanVals k0 xs c) + b.bias c
  let var := fun c => varL (b.chanVals k0 xs c)
  let b1 := if b.center then
    { b with movingMean := fun c => b.momentum * b.movingMean c + (1 - b.momentum) * mean c } else b
  let b2 := if b.scale then
    { b1 with movingVar := fun c => b.momentum * b.movingVar c + (1 - b.momentum) * var c } else b1
  let sc := fun c => if b.scale then b.gamma c * b.rsqrt (var c + b.eps) else 1
  { layer := b2
    kernel := if b.scale then fun j => b.kernel j * sc (b.kchan j) else b.kernel
    bias := if b.center then some fun c => b.bias c - mean c * sc c else none }

/-- batch statistics used by a training pass: mean including the bias.
layers/dense.py line 190, layers/conv.py line 372. -/
def batchMean (b : BNLayer) (qk : ℕ → ℚ) (xs : List (List ℚ)) (c : ℕ) : ℚ :=
  meanL ((b.chanVals (if b.scale then b.kernel else qk) xs c).map (· + b.bias c))

end BNLayer

/-- One channel of `HBatchNormalization`, batchnorm_base.py lines 127-218. -/
structure BNorm where
  gamma : ℚ
  beta : ℚ
  movingMean : ℚ
  movingVar : ℚ
  eps : ℚ
  momentum : ℚ
  rsqrt : ℚ → ℚ

/-- `ker` and `bias` of `HBatchNormalization.forward`, lines 199-200 -/
def BNorm.kerBias (b : BNorm) (mean var : ℚ) : ℚ × ℚ :=
  let ker := b.gamma * b.rsqrt (var + b.eps)
  (ker, b.beta - mean / ker)

/-- `HBatchNormalization.forward` with `training=False` on one value, lines 186-218; `qk`, `qb` are the kernel
quantizer and the activation quantizer (the latter is applied to the bias too). -/
def BNorm.infer (b : BNorm) (qk qb : ℚ → ℚ) (x : ℚ) : ℚ :=
  let kb := b.kerBias b.movingMean b.movingVar
  qb (qk kb.1 * x + qb kb.2)

/-- training statistics update, lines 188-193 -/
def BNorm.train (b : BNorm) (xs : List ℚ) : BNorm :=
  { b with
    movingMean := b.movingMean - (b.movingMean - meanL xs) * (1 - b.momentum)
    movingVar := b.movingVar - (b.movingVar - varL xs) * (1 - b.momentum) }

end HGQ
