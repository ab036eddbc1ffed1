import Verif.Model.Taps

/-!
Convolutions with `data_format='channels_first'`: layers/conv.py lines 72, 83-101, 105-110, 123, 129-135. `PFlatten` with this format:
layers/passive_layers.py lines 84-86.
-/

namespace HGQ

/-- `tf.nn.convolution(x, kernel, strides, padding, dilations, data_format)` with `_tf_data_format` of channels first, conv.py lines 92-100. The kernel
has shape `(k_1, .., k_n, cinK, cout)` as before, the input `(groups * cinK, i_1, .., i_n)`, the output `(cout, o_1, .., o_n)`. -/
def convTapsFirst (dims : List ConvDim) (cinK cout groups : ℕ) (p : ℕ) : List (ℕ × ℕ) :=
  let ks := dims.map ConvDim.kernel
  let n := prodL (dims.map ConvDim.out)
  let c := p / n
  let g := c / (cout / groups)
  (List.range (prodL ks)).flatMap fun j =>
    match convSrc dims (unravel (dims.map ConvDim.out) (p % n)) (unravel ks j) with
    | none => []
    | some s => (List.range cinK).map fun ci =>
        ((g * cinK + ci) * prodL (dims.map ConvDim.inp) + ravel (dims.map ConvDim.inp) s, (j * cinK + ci) * cout + c)

/-- `PFlatten(data_format='channels_first')`, passive_layers.py lines 84-86: the `call` of the Keras layer moves the channels behind the `n` positions
before it flattens. -/
def flattenFirst (n ch : ℕ) (x : List ℚ) : List ℚ := (List.range (n * ch)).map fun p => x.getD (p % ch * n + p / ch) 0

end HGQ
