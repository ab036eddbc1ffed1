import Verif.Model.TrainNet
import Verif.Model.BNFit

/-!
Models with fused batch-normalisation layers (`HDenseBatchNorm`, `HConv1DBatchNorm`, `HConv2DBatchNorm`) in training and at inference:
forward passes of the whole model, which move the statistics of these layers, and assignments to the trainable variables.

Not modelled here: the adaption of bitwidths in the first calls (`adapt_fused_bn_kernel_bw_bits`, `init_quantizer`). It only assigns
bitwidths, which `TrainOp.update` can do too.

Sources: `/repo/src/HGQ/layers/batchnorm_base.py`, `dense.py`, `conv.py`, `base.py`.
-/

namespace HGQ

/-- A built fused layer: the batch-normalisation part (`HBatchNormBase`, with kernel, bias and shapes) and the quantizers.
layers/dense.py lines 97-159, layers/conv.py lines 257-339, layers/batchnorm_base.py lines 10-94; for `jitLoc` see `LinLayer`. -/
structure FusedLayer where
  bn : BNLayer
  qShape : List ℕ
  jitLoc : ChLoc
  nChan : ℕ
  kq : QConf
  kfbw : ℕ → ℚ
  reluAct : Bool
  paq : QConf

/-- the layer `jit_forward`, `fused_qkernel` and `fused_qbias` see: kernel and bias are the properties `fused_kernel` and `fused_bias`,
and a bias is added if `use_bias`. layers/dense.py lines 61-72 and 167-168, layers/conv.py lines 116-127 and 348-349, layers/base.py lines 208-236. -/
def FusedLayer.infer (F : FusedLayer) : LinLayer where
  outShape := F.bn.outShape
  qShape := F.qShape
  chLoc := F.bn.chLoc
  jitLoc := F.jitLoc
  nChan := F.nChan
  taps := F.bn.taps
  kernel := F.bn.fusedKernel
  kq := F.kq
  kfbw := F.kfbw
  bias := if F.bn.useBias then some F.bn.fusedBias else none
  reluAct := F.reluAct
  paq := F.paq

/-- the second half of `bn_train_jit_forward`: kernel and bias made from the statistics of the batch, the bias quantized with
`self.channel_loc` in both classes. layers/dense.py lines 196-209, layers/conv.py lines 378-391. -/
def FusedLayer.trainLin (F : FusedLayer) (t : BNLayer.TrainOut) : LinLayer :=
  { F.infer with jitLoc := F.bn.chLoc, kernel := t.kernel, bias := t.bias }

/-- `self.kq(self.kernel, training, False)`, the kernel of the statistics without `scale`. (An unknown rounding strategy raises; then so
does the same call in `LinLayer.preT`, and the value here does not matter.) layers/dense.py line 185, layers/conv.py line 367. -/
def FusedLayer.statKernel (F : FusedLayer) (nz : Noise) (j : ℕ) : ℚ :=
  match F.kq.forward (F.kq.clip (F.kfbw j)) (F.bn.kernel j) (nz.kernel j) true with
  | .ok v => v
  | .error _ => 0

/-- `forward` with `training=True`: returns the layer with its new moving statistics, the state of the activation quantizer and the
outputs. layers/dense.py lines 165-166 and 179-211, layers/conv.py lines 346-347 and 361-393. -/
def FusedLayer.trainPass (F : FusedLayer) (s : QState) (record : Bool) (nz : Noise) (insB : List (List (List ℚ))) :
    Except String (FusedLayer × QState × List (List ℚ)) := do
  let t := F.bn.train (F.statKernel nz) (insB.map (·.headD []))
  let (s', outs) ← (Node.linear (F.trainLin t)).callT s true record nz insB
  return ({ F with bn := t.layer }, s', outs)

/-- Keras' `Dropout` in training, which `PDropout` inherits: a value whose random number is below the rate becomes 0, the others are divided by
`1 - rate`. layers/passive_layers.py lines 175-177. -/
def dropOut (rate : ℚ) (noise : ℕ → ℕ → ℚ) (xs : List (List ℚ)) : List (List ℚ) :=
  xs.mapIdx fun b x => x.mapIdx fun p v => if noise b p < rate then 0 else v / (1 - rate)

/-- a layer of a model in training.
The layer classes of layers/dense.py lines 10-211, layers/conv.py lines 12-393, layers/misc.py and layers/passive_layers.py. -/
inductive TNode
  | plain (nd : Node)
  | fused (F : FusedLayer)
  | dropout (rate : ℚ)

/-- the layer at inference. layers/dense.py lines 167-168, layers/conv.py lines 348-349, layers/passive_layers.py lines 175-177. -/
def TNode.infer : TNode → Node
  | .plain nd => nd
  | .fused F => .linear F.infer
  | .dropout _ => .passive fun ins => ins.headD []

/-- one call of a layer. layers/base.py lines 145-155, layers/dense.py lines 159-168, layers/conv.py lines 340-349,
layers/passive_layers.py lines 175-177. -/
def TNode.forward (t : TNode) (s : QState) (training record : Bool) (nz : Noise) (insB : List (List (List ℚ))) :
    Except String (TNode × QState × List (List ℚ)) :=
  match t, training with
  | .fused F, true => do
    let (F', s', outs) ← F.trainPass s record nz insB
    return (.fused F', s', outs)
  | .dropout rate, true => .ok (.dropout rate, s, dropOut rate nz.out (insB.map (·.headD [])))
  | t, training => do
    let (s', outs) ← t.infer.callT s training record nz insB
    return (t, s', outs)

/-- a model whose layers can be fused batch-normalisation layers, in topological order as `Net`.
A functional Keras model as walked by proxy/convert.py lines 34-54. -/
abbrev TrainNet := List (TNode × List ℕ)

/-- the model at inference. layers/dense.py lines 167-168, layers/conv.py lines 348-349. -/
def TrainNet.infer (net : TrainNet) : Net := net.map fun ti => (ti.1.infer, ti.2)

/-- `model(batch, training=training)` with the layers' `record_minmax` set to `record`, layers/base.py lines 145-155 -/
def TrainNet.forward (training record : Bool) : TrainNet → List QState → (ℕ → Noise) → List (List (List ℚ)) →
    Except String (TrainNet × List QState × List (List (List ℚ)))
  | [], _, _, envs => .ok ([], [], envs)
  | (t, ins) :: rest, s :: ss, nz, envs => do
    let (t', s', outs) ← t.forward s training (training || record) (nz 0) (envs.map (gather · ins))
    let (rest', ss', envs') ← TrainNet.forward training record rest ss (fun i => nz (i + 1))
      (List.zipWith (fun env o => env ++ [o]) envs outs)
    return ((t', ins) :: rest', s' :: ss', envs')
  | _ :: _, [], _, _ => .error "missing state"

/-- values assigned to the trainable variables of one layer by an optimizer, a callback or `set_weights`: kernel, bias, `bn_gamma`,
`bn_beta`, and the bitwidths of the kernel and of the activation quantizer.
layers/base.py lines 114-143, layers/batchnorm_base.py lines 63-94. -/
structure Vars where
  kernel : ℕ → ℚ
  bias : ℕ → ℚ
  gamma : ℕ → ℚ
  beta : ℕ → ℚ
  kfbw : ℕ → ℚ
  fbw : ℕ → ℚ

/-- the layer after the assignment; variables a layer does not have are ignored.
layers/base.py lines 114-143, layers/batchnorm_base.py lines 63-94. -/
def TNode.assign (v : Vars) : TNode → TNode
  | .plain (.linear L) => .plain (.linear { L with kernel := v.kernel, bias := L.bias.map fun _ => v.bias, kfbw := v.kfbw })
  | .plain nd => .plain nd
  | .dropout rate => .dropout rate
  | .fused F => .fused { F with bn := F.bn.withVars ⟨v.kernel, v.bias, v.gamma, v.beta, fun _ => 0, []⟩, kfbw := v.kfbw }

/-- what can happen to a model in training.
A step of `fit`: layers/base.py lines 145-155, and the variables of layers/base.py lines 114-143. -/
inductive TrainOp
  /-- an optimizer step: new values for the trainable variables of every layer -/
  | update (vars : ℕ → Vars)
  /-- a forward pass, in training or (validation, prediction) not -/
  | forward (p : Pass)

/-- a model with the states of its quantizers.
layers/base.py lines 114-155. -/
structure TrainModel where
  net : TrainNet
  states : List QState

/-- one step. layers/base.py lines 114-155. -/
def TrainModel.step (m : TrainModel) : TrainOp → Except String TrainModel
  | .update vars => .ok
      { net := m.net.zipIdx.map fun ti => (ti.1.1.assign (vars ti.2), ti.1.2)
        states := m.states.zipIdx.map fun si => { si.1 with fbw := (vars si.2).fbw } }
  | .forward p => do
    let (net, ss, _) ← m.net.forward p.training p.record m.states p.noise p.batch
    return ⟨net, ss⟩

/-- any sequence of steps. layers/base.py lines 114-155. -/
def TrainModel.run (m : TrainModel) : List TrainOp → Except String TrainModel
  | [] => .ok m
  | o :: os => do
    let m' ← m.step o
    TrainModel.run m' os

end HGQ
