import Verif.Model.Proxy
import Verif.Model.Shape

/-!
Model of the layers with a kernel (`HDense`, `HConv*`, and their fused batch-norm variants once the fused kernel and
bias are given) and of the proxy layers made from them.

Sources: `/repo/src/HGQ/layers/base.py`, `dense.py`, `conv.py`, `/repo/src/HGQ/proxy/convert.py`.
-/

namespace HGQ

/-- `tf.keras.activations.relu`.
The function tested at layers/base.py line 91 and called at layers/dense.py line 70, layers/conv.py line 125. -/
def relu (x : ℚ) : ℚ := max x 0

/-- `tf.reduce_max` of bitwidths over a non-empty list of elements.
quantizer/quantizer.py line 191, layers/base.py line 229. -/
def maxFbw (fbw : ℕ → ℚ) : List ℕ → ℚ
  | [] => 0
  | [e] => fbw e
  | e :: es => max (fbw e) (maxFbw fbw es)

/-- A built `HDense`/`HConv` layer. The linear map is given by its connectivity: output position `p` is the sum over
`(i, j) ∈ taps p` of input `i` times kernel entry `j` (`denseTaps`, `conv2dTaps` in `Verif/Model/Taps.lean` are the
concrete instances). Shapes are per sample (no batch dimension).
* `chLoc`: `channel_loc` (base.py line 104, conv.py line 72)
* `jitLoc`: the `channel_loc` handed to `bias_forward` by `jit_forward`: `channel_loc` in dense.py line 67, the
  default -1 in conv.py line 122.
* `kernel`, `bias`: `fused_kernel`, `fused_bias` -/
structure LinLayer where
  outShape : List ℕ
  qShape : List ℕ
  chLoc : ChLoc
  jitLoc : ChLoc
  nChan : ℕ
  taps : ℕ → List (ℕ × ℕ)
  kernel : ℕ → ℚ
  kq : QConf
  kfbw : ℕ → ℚ
  bias : Option (ℕ → ℚ)
  reluAct : Bool
  paq : QConf

namespace LinLayer

/-- activation-quantizer element at output position `p`.
The element of `paq.fbw` broadcast to a position at quantizer/quantizer.py line 160. -/
def elem (L : LinLayer) (p : ℕ) : ℕ := elemOf L.outShape L.qShape p

/-- channel of output position `p`. `channel_loc`, layers/base.py lines 83-86 and 222-227. -/
def chan (L : LinLayer) (p : ℕ) : ℕ := chanOf L.outShape L.chLoc p

/-- `can_bias_cover_rnd`, base.py lines 72-87 (the bias has shape `(nChan,)`, the quantizer a leading batch
dimension 1). -/
def canBiasCover (L : LinLayer) : Bool :=
  canBiasCoverRnd (L.bias.map fun _ => [L.nChan]) (1 :: L.qShape) L.chLoc

/-- `self.kq(self.fused_kernel, training=False)`: dense.py line 64, conv.py line 119 and base.py lines 208-212. -/
def qkernel (L : LinLayer) (j : ℕ) : ℚ := evalQ L.kq.strategy (L.kq.clip (L.kfbw j)) (L.kernel j)

/-- `self.paq.bias_forward(self.fused_bias, False, loc)`, quantizer.py lines 181-209 -/
def qbias (L : LinLayer) (loc : ChLoc) (fbw : ℕ → ℚ) (b : ℕ → ℚ) (c : ℕ) : ℚ :=
  evalQ L.paq.strategy (maxFbw fbw (redElems L.qShape loc c)) (b c)

/-- `tf.matmul(x, k)` / `convolution_op(x, k)` then `bias_add`, at output position `p`.
layers/dense.py lines 64-68, layers/conv.py lines 119-123. -/
def preact (L : LinLayer) (k : ℕ → ℚ) (b : ℕ → ℚ) (x : List ℚ) (p : ℕ) : ℚ :=
  ((L.taps p).map fun ij => x.getD ij.1 0 * k ij.2).sum + b (L.chan p)

/-- the bias added by `jit_forward` (0 if the layer has none), dense.py lines 65-68, conv.py lines 120-123. -/
def jitBias (L : LinLayer) (fbw : ℕ → ℚ) (c : ℕ) : ℚ :=
  match L.bias with
  | none => 0
  | some b => L.qbias L.jitLoc fbw b c

/-- argument of the activation quantizer in `jit_forward`, dense.py lines 63-68, conv.py lines 118-123;
`fbw` are the bitwidths before the clipping done by `self.paq(..)`. -/
def pre (L : LinLayer) (fbw : ℕ → ℚ) (x : List ℚ) (p : ℕ) : ℚ := L.preact L.qkernel (L.jitBias fbw) x p

/-- activation of the layer. layers/dense.py line 70, layers/conv.py line 125. -/
def post (L : LinLayer) (z : ℚ) : ℚ := if L.reluAct then relu z else z

/-- `mask` of `fused_qbias`, base.py line 230: some position of the channel has non-zero `act_bw`. -/
def biasMask (L : LinLayer) (s : QState) (c : ℕ) : Bool :=
  (List.range (prodL L.outShape)).any fun p =>
    decide (L.chan p = c) &&
      decide (0 < actBw ((s.mn (L.elem p)).untopD 0) ((s.mx (L.elem p)).unbotD 0) (s.fbw (L.elem p)) L.reluAct)

/-- `fused_qbias`, base.py lines 214-236 (0 if the layer has no bias) -/
def fusedQBias (L : LinLayer) (s : QState) (c : ℕ) : ℚ :=
  match L.bias with
  | none => 0
  | some b =>
    let bq := L.qbias L.chLoc s.fbw b c
    let bq := if L.paq.strategy ≠ 3 ∧ L.canBiasCover then
      p2 (-(tfRound (maxFbw s.fbw (redElems L.qShape L.chLoc c))) - 1) + bq else bq
    if L.biasMask s c then bq else 0

/-- output of the Keras layer in the proxy (`klayer`, carrying `fused_qkernel` and `fused_qbias`),
convert.py lines 69-88 and 219-258. -/
def klayer (L : LinLayer) (s : QState) (x : List ℚ) (p : ℕ) : ℚ := L.preact L.qkernel (L.fusedQBias s) x p

/-- type of the pre-activation quantizer in front of the ReLU: element-wise maxima of the exact bits,
convert.py lines 318-320. -/
def reluKif (L : LinLayer) (s : QState) : KIF :=
  let ks := (List.range (prodL L.qShape)).map fun e =>
    bitsExact ((s.mn e).untopD 0) ((s.mx e).unbotD 0) (s.fbw e) false
  ⟨listMax (ks.map (·.k)), listMax (ks.map (·.i)), listMax (ks.map (·.f))⟩

/-- exact bits at the element of position `p`. proxy/convert.py line 270. -/
def bitsAt (L : LinLayer) (s : QState) (posOnly : Bool) (p : ℕ) : KIF :=
  bitsExact ((s.mn (L.elem p)).untopD 0) ((s.mx (L.elem p)).unbotD 0) (s.fbw (L.elem p)) posOnly

/-- Output of the proxy sub-model of the layer at position `p`, convert.py lines 299-331. -/
def proxyOut (L : LinLayer) (s : QState) (S : Sat) (x : List ℚ) (p : ℕ) : ℚ :=
  let R := proxyRnd L.paq.strategy L.canBiasCover
  let z := L.klayer s x p
  if L.reluAct then
    let t := L.reluKif s
    let fAdd : ℤ := if R = .TRN then 0 else if R = .RND then 1 else 2
    let fq1 := KBI.init t.k (t.k + t.i + t.f + fAdd) (t.k + t.i)
    (proxyQ (L.bitsAt s true p)).apply R S (relu (fq1.apply .TRN S z))
  else
    (proxyQ (L.bitsAt s false p)).apply R S z

/-- Output of the HGQ layer at inference at position `p` in state `s`: quantize the pre-activation with the clipped
bitwidth (quantizer.py lines 137-168), then the activation; dense.py lines 61-72, conv.py lines 116-127.
`Node.call_eq` connects this with `QConf.call`. -/
def quant (L : LinLayer) (s : QState) (x : List ℚ) (p : ℕ) : ℚ :=
  evalQ L.paq.strategy (L.paq.clip (s.fbw (L.elem p))) (L.pre s.fbw x p)

end LinLayer

end HGQ
