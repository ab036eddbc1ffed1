import Verif.Model.BatchNorm

/-!
Training histories of the batch-norm layers: steps of `Verif/Model/BatchNorm.lean` with changes of the trainable variables
between them.
-/

namespace HGQ

/-- a training step of a fused layer: the values the optimizer gave to the trainable variables before it, the quantized kernel
`qk` of the pass (used without `scale` only) and the batch.
One call of `bn_train_jit_forward`, layers/dense.py lines 179-211, layers/conv.py lines 361-393. -/
structure BNStep where
  kernel : ℕ → ℚ
  bias : ℕ → ℚ
  gamma : ℕ → ℚ
  beta : ℕ → ℚ
  qk : ℕ → ℚ
  batch : List (List ℚ)

/-- the layer with these values of the trainable variables. `bn_gamma` and `bn_beta` are trainable only with `scale` and `center`
(batchnorm_base.py lines 63-94). -/
def BNLayer.withVars (b : BNLayer) (s : BNStep) : BNLayer :=
  { b with
    kernel := s.kernel
    bias := s.bias
    gamma := if b.scale then s.gamma else b.gamma
    beta := if b.center then s.beta else b.beta }

/-- one step: dense.py lines 165-166 and 179-211, conv.py lines 346-347 and 361-392 -/
def BNLayer.step (b : BNLayer) (s : BNStep) : BNLayer := ((b.withVars s).train s.qk s.batch).layer

/-- `fit`.
Repeated calls of `bn_train_jit_forward`, layers/dense.py line 166, layers/conv.py line 347. -/
def BNLayer.fit (b : BNLayer) (ss : List BNStep) : BNLayer := ss.foldl BNLayer.step b

/-- `fit` of a layer with `trainable=False`: the optimizer leaves kernel, bias, `bn_gamma` and `bn_beta` as they are; the passes are
the same, because `trainable` is not looked at. A pass is the quantized kernel (used without `scale` only) and the batch.
layers/dense.py lines 165-166 and 179-211, layers/conv.py lines 346-347 and 361-392. -/
def BNLayer.frozenFit (b : BNLayer) (ps : List ((ℕ → ℚ) × List (List ℚ))) : BNLayer :=
  ps.foldl (fun b p => b.step ⟨b.kernel, b.bias, b.gamma, b.beta, p.1, p.2⟩) b

/-- `fit` of one channel of `HBatchNormalization`: `gamma`, `beta` left by the optimizer, and the values of the channel,
batchnorm_base.py lines 186-200 -/
def BNorm.fit (b : BNorm) (ss : List (ℚ × ℚ × List ℚ)) : BNorm :=
  ss.foldl (fun b s => BNorm.train { b with gamma := s.1, beta := s.2.1 } s.2.2) b

end HGQ
