import Verif.Model.Net

/-!
The forward pass of a whole model with `training=True` (and, for comparison, `False`) on fixed weights. The random numbers of
stochastic rounding and noise injection are arguments.

Fused batch normalisation, which replaces kernel and bias by those of the batch, is modelled in `Verif/Model/BatchNorm.lean`;
dropout is not modelled.

Sources: `/repo/src/HGQ/layers/base.py`, `dense.py`, `conv.py`, `misc.py`, `/repo/src/HGQ/quantizer/quantizer.py`.
-/

namespace HGQ

/-- the random numbers drawn in one call of a layer: for the entries of the kernel, for the bias of every channel, and for every
sample and output position. `tf.random.uniform` at quantizer/quantizer.py lines 28 and 31. -/
structure Noise where
  kernel : ℕ → ℚ
  bias : ℕ → ℚ
  out : ℕ → ℕ → ℚ

/-- `self.paq.bias_forward(self.fused_bias, training, loc)` (0 if the layer has no bias).
layers/dense.py lines 65-68, layers/conv.py lines 120-123, quantizer/quantizer.py lines 181-209. -/
def LinLayer.biasT (L : LinLayer) (training : Bool) (fbw : ℕ → ℚ) (nz : Noise) (c : ℕ) : Except String ℚ :=
  match L.bias with
  | none => .ok 0
  | some b => L.paq.forward (maxFbw fbw (redElems L.qShape L.jitLoc c)) (b c) (nz.bias c) training

/-- argument of the activation quantizer in `jit_forward` at position `p`: `self.kq(self.fused_kernel, training, False)`, the matrix
product or convolution, and the bias.
layers/dense.py lines 63-68, layers/conv.py lines 118-123, quantizer/quantizer.py lines 137-209. -/
def LinLayer.preT (L : LinLayer) (training : Bool) (fbw : ℕ → ℚ) (nz : Noise) (x : List ℚ) (p : ℕ) : Except String ℚ := do
  let ts ← (L.taps p).mapM fun ij => do
    let k ← L.kq.forward (L.kq.clip (L.kfbw ij.2)) (L.kernel ij.2) (nz.kernel ij.2) training
    return x.getD ij.1 0 * k
  let b ← L.biasT training fbw nz (L.chan p)
  return ts.sum + b

/-- value at position `p` handed to the quantizer. layers/dense.py lines 64-68, layers/conv.py lines 119-123; layers without a kernel,
layers/misc.py lines 24, 54, 66, compute the same in training. -/
def Node.preAtT (nd : Node) (training : Bool) (fbw : ℕ → ℚ) (nz : Noise) (ins : List (List ℚ)) (p : ℕ) : Except String ℚ :=
  match nd with
  | .linear L => L.preT training fbw nz (ins.headD []) p
  | _ => .ok (nd.preAt fbw ins p)

/-- One call of a layer on a batch, layers/base.py lines 145-155 and the `forward` methods. -/
def Node.callT (nd : Node) (s : QState) (training record : Bool) (nz : Noise) (insB : List (List (List ℚ))) :
    Except String (QState × List (List ℚ)) :=
  match nd.site with
  | none => .ok (s, insB.map (nd.pre s.fbw))
  | some q => do
    let zs ← insB.mapM fun ins => (List.range (prodL q.outShape)).mapM (nd.preAtT training s.fbw nz ins)
    let (s', zq) ← q.conf.call q.elem s nz.out training record zs
    return (s', zq.map fun z => z.map nd.post)

/-- `model(batch, training=training)`; `record` is the `record_minmax` attribute of the layers: a layer records if it is set or in
training, layers/base.py lines 149-150. -/
def Net.callT (training record : Bool) : Net → List QState → (ℕ → Noise) → List (List (List ℚ)) →
    Except String (List QState × List (List (List ℚ)))
  | [], _, _, envs => .ok ([], envs)
  | (nd, ins) :: rest, s :: ss, nz, envs => do
    let (s', outs) ← nd.callT s training (training || record) (nz 0) (envs.map (gather · ins))
    let (ss', envs') ← Net.callT training record rest ss (fun i => nz (i + 1)) (List.zipWith (fun env o => env ++ [o]) envs outs)
    return (s' :: ss', envs')
  | _ :: _, [], _, _ => .error "missing state"

/-- one call `model(batch, training=training)` with the layers' `record_minmax` set to `record`.
layers/base.py lines 145-155. -/
structure Pass where
  training : Bool
  record : Bool
  noise : ℕ → Noise
  batch : List (List (List ℚ))

/-- a sequence of calls between which no weight is changed (a frozen model in `fit`, or a training loop without an optimizer):
the states of the layers at the end. layers/base.py lines 145-155. -/
def Net.passes (net : Net) : List QState → List Pass → Except String (List QState)
  | ss, [] => .ok ss
  | ss, p :: ps => do
    let (ss', _) ← net.callT p.training p.record ss p.noise p.batch
    Net.passes net ss' ps

end HGQ
