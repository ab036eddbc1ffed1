import Mathlib.Analysis.SpecialFunctions.Exp
import Mathlib.Analysis.SpecialFunctions.Sqrt

/-!
Model of `HMultiHeadAttention`, `/repo/src/HGQ/layers/experimental/attn.py`.

Values are real numbers, one sample at a time (the operations act on the samples of a batch independently); tensors are flat and
row-major. `print` (lines 89, 94, 106) is not modelled.
-/

namespace HGQ.Attn
open Finset

/-- the four `Dense` layers (kernel and bias, flat) and the sizes fixed by `__init__` (lines 13-53) and `attn_build` (lines 55-66).
Without `use_bias` the biases are 0. `dropout`, the initializers, regularizers, constraints, `output_shape` and `attention_axes` are
stored by the code and never used. -/
structure Layer where
  numHeads : ℕ
  keyDim : ℕ
  valueDim : ℕ
  qDim : ℕ
  kDim : ℕ
  vDim : ℕ
  wq : ℕ → ℝ
  bq : ℕ → ℝ
  wk : ℕ → ℝ
  bk : ℕ → ℝ
  wv : ℕ → ℝ
  bv : ℕ → ℝ
  wo : ℕ → ℝ
  bo : ℕ → ℝ

/-- `value_dim if value_dim else key_dim`, line 35 -/
def effValueDim (keyDim : ℕ) : Option ℕ → ℕ
  | none => keyDim
  | some 0 => keyDim
  | some v => v

/-- a Keras `Dense` layer on a flat tensor with rows of length `din`, lines 76-78 and 111 -/
noncomputable def dense (din dout : ℕ) (W b x : ℕ → ℝ) (p : ℕ) : ℝ :=
  ∑ i ∈ range din, x (p / dout * din + i) * W (i * dout + p % dout) + b (p % dout)

/-- `tf.transpose(X, [0, 2, 1, 3])` of a tensor of shape `(A, B, D)` per sample, lines 86-88 and 109: result of shape `(B, A, D)` -/
def transpose (A B D : ℕ) (X : ℕ → ℝ) (p : ℕ) : ℝ :=
  let b := p / (A * D)
  let a := p / D % A
  let d := p % D
  X ((a * B + b) * D + d)

/-- `tf.matmul(Q, K, transpose_b=True)` of shapes `(H, n, D)` and `(H, m, D)`, line 92: shape `(H, n, m)` -/
noncomputable def matmulT (n m D : ℕ) (Q K : ℕ → ℝ) (p : ℕ) : ℝ :=
  ∑ d ∈ range D, Q (p / m * D + d) * K ((p / (n * m) * m + p % m) * D + d)

/-- `tf.matmul(A, V)` of shapes `(H, n, m)` and `(H, m, D)`, line 105: shape `(H, n, D)` -/
noncomputable def matmul (n m D : ℕ) (A V : ℕ → ℝ) (p : ℕ) : ℝ :=
  ∑ j ∈ range m, A (p / D * m + j) * V ((p / (n * D) * m + j) * D + p % D)

/-- `Softmax(axis=-1)` on rows of length `m`, lines 62 and 102 -/
noncomputable def softmaxRows (m : ℕ) (X : ℕ → ℝ) (p : ℕ) : ℝ := Real.exp (X p) / ∑ j ∈ range m, Real.exp (X (p / m * m + j))

/-- the `attention_mask` argument of shape `(n, m)` per sample.
layers/experimental/attn.py lines 71 and 96-100. -/
inductive Mask
  | none
  | bool (m : ℕ → Bool)
  | float (m : ℕ → ℝ)

/-- what is added to the scores, lines 96-100; the head dimension is broadcast -/
noncomputable def Mask.add : Mask → ℕ → ℝ
  | .none, _ => 0
  | .bool m, p => (if m p then 0 else 1) * -1000000000
  | .float m, p => m p

/-- `QK` after masking and softmax, lines 76-102, for `n` queries and `m` keys: shape `(H, n, m)` -/
noncomputable def Layer.scores (L : Layer) (n m : ℕ) (mask : Mask) (q k : ℕ → ℝ) : ℕ → ℝ :=
  let Q := dense L.qDim (L.keyDim * L.numHeads) L.wq L.bq q
  let K := dense L.kDim (L.keyDim * L.numHeads) L.wk L.bk k
  let Q := transpose n L.numHeads L.keyDim Q
  let K := transpose m L.numHeads L.keyDim K
  let QK := fun p => matmulT n m L.keyDim Q K p / √L.keyDim
  let QK := fun p => QK p + mask.add (p % (n * m))
  softmaxRows m QK

/-- `call` on one sample, lines 71-114: `n` queries, `m` keys and values; result of shape `(n, vDim)` -/
noncomputable def Layer.call (L : Layer) (n m : ℕ) (mask : Mask) (q k v : ℕ → ℝ) : ℕ → ℝ :=
  let V := dense L.vDim (L.valueDim * L.numHeads) L.wv L.bv v
  let V := transpose m L.numHeads L.valueDim V
  let out := matmul n m L.valueDim (L.scores n m mask q k) V
  let out := transpose L.numHeads n L.valueDim out
  dense (L.valueDim * L.numHeads) L.vDim L.wo L.bo out

/-- last dimension of the declared output shape, `compute_output_shape`, lines 68-69 -/
def Layer.declaredDim (L : Layer) : ℕ := L.valueDim * L.numHeads

/-- last dimension of the tensor returned: units of `to_out`, line 60 -/
def Layer.actualDim (L : Layer) : ℕ := L.vDim

/-- static shapes of the arguments as seen by `call`: batch, positions; `none` where unknown.
`Q.shape[:2]` and so on, layers/experimental/attn.py lines 81-83 and 110. -/
structure Static where
  batch : Option ℕ
  n : Option ℕ

/-- `tf.reshape(X, [*X.shape[:2], ..])`, lines 81-83 and 110: an unknown dimension is the Python value `None`, which cannot be converted
to a shape -/
def reshapeOk (s : Static) : Except String Unit :=
  match s.batch, s.n with
  | some _, some _ => .ok ()
  | _, _ => .error "Failed to convert elements of [None, ...] to Tensor"

/-- the part of `call` that looks at static shapes, lines 81-83 and 110 -/
def callShapes (q k v : Static) : Except String Unit := do
  reshapeOk q
  reshapeOk k
  reshapeOk v
  reshapeOk ⟨q.batch, q.n⟩

end HGQ.Attn
