import Verif.Model.Layer
import Verif.Model.Float32Ops

/-!
A layer with a kernel and its proxy as evaluated in float32. The definitions follow `Verif/Model/Layer.lean` one by one, every
arithmetic operation rounded by `fl`. The order of the accumulation is a parameter: TensorFlow may use different ones for the HGQ
layer (compiled with XLA, `jit_forward`) and for the Keras layer of the proxy.

Sources: `/repo/src/HGQ/layers/base.py`, `dense.py`, `conv.py`, `/repo/src/HGQ/proxy/convert.py`.
-/

namespace HGQ

/-- `FixedPointQuantizer.call` in float32, fixed_point_quantizer.py lines 178-182, one element, `training` falsy. -/
def KBI.applyF (fl : ℚ → ℚ) (q : KBI) (R : Rnd) (S : Sat) (x : ℚ) : ℚ :=
  gfixedQuantizerF fl x q.keepNegative q.bits q.integers R S

namespace LinLayer

/-- `self.kq(self.fused_kernel, training=False)` in float32: dense.py line 64, conv.py line 119 and base.py lines 208-212. -/
def qkernelF (fl : ℚ → ℚ) (L : LinLayer) (j : ℕ) : ℚ := evalQF fl L.kq.strategy (L.kq.clip (L.kfbw j)) (L.kernel j)

/-- `self.paq.bias_forward(self.fused_bias, False, loc)` in float32, quantizer.py lines 181-209 -/
def qbiasF (fl : ℚ → ℚ) (L : LinLayer) (loc : ChLoc) (fbw : ℕ → ℚ) (b : ℕ → ℚ) (c : ℕ) : ℚ :=
  evalQF fl L.paq.strategy (maxFbw fbw (redElems L.qShape loc c)) (b c)

/-- `tf.matmul(x, k)` / `convolution_op(x, k)` in the order `order p`, then `bias_add` if there is a bias.
layers/dense.py lines 64-68, layers/conv.py lines 119-123. -/
def preactF (fl : ℚ → ℚ) (L : LinLayer) (order : ℕ → Acc (ℕ × ℕ)) (k : ℕ → ℚ) (b : ℕ → ℚ) (x : List ℚ) (p : ℕ) : ℚ :=
  let z := (order p).runF fl (fun ij => x.getD ij.1 0) (fun ij => k ij.2)
  match L.bias with
  | none => z
  | some _ => fl (z + b (L.chan p))

/-- the bias added by `jit_forward`, dense.py lines 65-68, conv.py lines 120-123. -/
def jitBiasF (fl : ℚ → ℚ) (L : LinLayer) (fbw : ℕ → ℚ) (c : ℕ) : ℚ :=
  match L.bias with
  | none => 0
  | some b => L.qbiasF fl L.jitLoc fbw b c

/-- output of the HGQ layer before its activation at inference in float32, dense.py lines 61-72, conv.py lines 116-127. -/
def quantF (fl : ℚ → ℚ) (L : LinLayer) (s : QState) (order : ℕ → Acc (ℕ × ℕ)) (x : List ℚ) (p : ℕ) : ℚ :=
  evalQF fl L.paq.strategy (L.paq.clip (s.fbw (L.elem p))) (L.preactF fl order (L.qkernelF fl) (L.jitBiasF fl s.fbw) x p)

/-- `fused_qbias` in float32, base.py lines 214-236 -/
def fusedQBiasF (fl : ℚ → ℚ) (L : LinLayer) (s : QState) (c : ℕ) : ℚ :=
  match L.bias with
  | none => 0
  | some b =>
    let bq := L.qbiasF fl L.chLoc s.fbw b c
    let bq := if L.paq.strategy ≠ 3 ∧ L.canBiasCover then
      fl (p2 (-(tfRound (maxFbw s.fbw (redElems L.qShape L.chLoc c))) - 1) + bq) else bq
    if L.biasMask s c then bq else 0

/-- Output of the proxy sub-model of the layer in float32 at position `p`, convert.py lines 299-331. -/
def proxyOutF (fl : ℚ → ℚ) (L : LinLayer) (s : QState) (S : Sat) (order : ℕ → Acc (ℕ × ℕ)) (x : List ℚ) (p : ℕ) : ℚ :=
  let R := proxyRnd L.paq.strategy L.canBiasCover
  let z := L.preactF fl order (L.qkernelF fl) (L.fusedQBiasF fl s) x p
  if L.reluAct then
    let t := L.reluKif s
    let fAdd : ℤ := if R = .TRN then 0 else if R = .RND then 1 else 2
    let fq1 := KBI.init t.k (t.k + t.i + t.f + fAdd) (t.k + t.i)
    (proxyQ (L.bitsAt s true p)).applyF fl R S (relu (fq1.applyF fl .TRN S z))
  else
    (proxyQ (L.bitsAt s false p)).applyF fl R S z

end LinLayer

end HGQ
