import Verif.Model.Layer

/-!
Connectivity of the layers with a kernel: which inputs meet which kernel entries in one output.

`tf.matmul` (`/repo/src/HGQ/layers/dense.py` line 65) and `tf.nn.convolution`
(`/repo/src/HGQ/layers/conv.py` lines 83-100, channels last). Tensors are flat, row-major, without the batch dimension.
-/

namespace HGQ

/-- `tf.matmul(x, kernel)` with a kernel of shape `(cin, cout)`, dense.py line 65: output `p` in row `p / cout` and
column `p % cout` -/
def denseTaps (cin cout : ℕ) (p : ℕ) : List (ℕ × ℕ) :=
  (List.range cin).map fun k => (p / cout * cin + k, k * cout + p % cout)

/-- one spatial dimension of a convolution, conv.py lines 83-100 -/
structure ConvDim where
  inp : ℕ
  out : ℕ
  kernel : ℕ
  stride : ℕ
  dilation : ℕ
  padLo : ℕ
  deriving DecidableEq, Repr

/-- `padding='valid'` as defined by TensorFlow. layers/conv.py lines 84-100. -/
def ConvDim.valid (inp kernel stride dilation : ℕ) : ConvDim :=
  ⟨inp, (inp - ((kernel - 1) * dilation + 1)) / stride + 1, kernel, stride, dilation, 0⟩

/-- `padding='same'` as defined by TensorFlow. layers/conv.py lines 84-100. -/
def ConvDim.same (inp kernel stride dilation : ℕ) : ConvDim :=
  let out := (inp + stride - 1) / stride
  ⟨inp, out, kernel, stride, dilation, ((out - 1) * stride + (kernel - 1) * dilation + 1 - inp) / 2⟩

/-- input position read by output `o` at kernel offset `j`, `none` in the padding.
layers/conv.py lines 92-100. -/
def ConvDim.src (d : ConvDim) (o j : ℕ) : Option ℕ :=
  let s := o * d.stride + j * d.dilation
  if d.padLo ≤ s ∧ s - d.padLo < d.inp then some (s - d.padLo) else none

/-- input multi-index read by output `os` at kernel offsets `js`. layers/conv.py lines 92-100. -/
def convSrc : List ConvDim → List ℕ → List ℕ → Option (List ℕ)
  | d :: ds, o :: os, j :: js =>
    match d.src o j, convSrc ds os js with
    | some s, some ss => some (s :: ss)
    | _, _ => none
  | _, _, _ => some []

/-- `tf.nn.convolution(x, kernel, strides, padding, dilations)`, channels last, conv.py lines 83-100. The kernel has shape
`(k_1, .., k_n, cinK, cout)`, the input `(i_1, .., i_n, groups * cinK)`. -/
def convTaps (dims : List ConvDim) (cinK cout groups : ℕ) (p : ℕ) : List (ℕ × ℕ) :=
  let ks := dims.map ConvDim.kernel
  let c := p % cout
  let g := c / (cout / groups)
  (List.range (prodL ks)).flatMap fun j =>
    match convSrc dims (unravel (dims.map ConvDim.out) (p / cout)) (unravel ks j) with
    | none => []
    | some s => (List.range cinK).map fun ci =>
        (ravel (dims.map ConvDim.inp) s * (groups * cinK) + (g * cinK + ci), (j * cinK + ci) * cout + c)

end HGQ
