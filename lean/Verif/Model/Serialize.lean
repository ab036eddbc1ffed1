import Verif.Model.Trace
import Verif.Model.BatchNorm
import Verif.Model.UnaryLut

/-!
Saving a model and loading it again (`model.save(path)` / `load_model(path)`, as in `/repo/test/helpers.py` lines 74-88).

Keras stores for every layer the dict returned by `get_config()` and the list `layer.weights`; loading calls
`cls.from_config(config)` (by default `cls(**config)`), builds the layer and assigns the weights in order, after checking that
there are as many of them and that the shapes agree. Keras itself is not part of the repository: this is the behaviour modelled
for it.

Sources: the constructors and `get_config`s of `/repo/src/HGQ/layers/base.py`, `dense.py`, `conv.py`, `batchnorm_base.py`, `misc.py`,
`passive_layers.py`, `/repo/src/HGQ/proxy/fixed_point_quantizer.py`, `unary_lut.py`.
-/

namespace HGQ.Serialize

/-! ### Constructor arguments -/

/-- the value of a constructor argument. Values Keras converts to and from JSON itself (initializers, dicts, ...) are
`obj`; converting them back gives an equal value.
The arguments stored by layers/base.py lines 44-66, layers/dense.py lines 29-46, layers/conv.py lines 42-72, layers/batchnorm_base.py lines 29-47. -/
inductive V
  | none
  | bool (b : Bool)
  | num (q : ℚ)
  | str (s : String)
  | obj (n : ℕ)
  deriving DecidableEq, Repr

/-- one class on the method resolution order of a layer class: the keywords its `__init__` takes out of `kwargs` (with their
defaults; `Option.none`: required) and the keys its `get_config` adds.
The `__init__`s and `get_config`s of layers/base.py lines 44-66 and 248-255, layers/dense.py lines 11-46 and 88-93, layers/conv.py lines 13-72 and 137-142, layers/batchnorm_base.py lines 11-47. -/
structure Part where
  params : List (String × Option V)
  keys : List String

/-- a layer class: its method resolution order.
The class statements layers/dense.py lines 10 and 97, layers/conv.py lines 12, 146, 202, 257, 397, layers/misc.py lines 14, 31, 62. -/
abbrev Cls := List Part

/-- `tf.keras.layers.Layer` (Keras 2.13): keyword arguments and `get_config`.
Base of layers/base.py line 18. -/
def kerasLayer : Part where
  params := [("name", some .none), ("trainable", some (.bool true)), ("dtype", some .none), ("activity_regularizer", some .none)]
  keys := ["name", "trainable", "dtype"]

/-- `tf.keras.layers.Dense`. Base of layers/dense.py line 10. -/
def kerasDense : Part where
  params := [("units", none), ("activation", some .none), ("use_bias", some (.bool true)),
    ("kernel_initializer", some (.str "glorot_uniform")), ("bias_initializer", some (.str "zeros")), ("kernel_regularizer", some .none),
    ("bias_regularizer", some .none), ("activity_regularizer", some .none), ("kernel_constraint", some .none),
    ("bias_constraint", some .none)]
  keys := ["units", "activation", "use_bias", "kernel_initializer", "bias_initializer", "kernel_regularizer", "bias_regularizer",
    "activity_regularizer", "kernel_constraint", "bias_constraint"]

/-- `keras.src.layers.convolutional.base_conv.Conv` called with a fixed `rank`.
Base of layers/conv.py line 12. -/
def kerasConv : Part where
  params := [("filters", none), ("kernel_size", none), ("strides", some (.num 1)), ("padding", some (.str "valid")),
    ("data_format", some .none), ("dilation_rate", some (.num 1)), ("groups", some (.num 1)), ("activation", some .none),
    ("use_bias", some (.bool true)), ("kernel_initializer", some (.str "glorot_uniform")), ("bias_initializer", some (.str "zeros")),
    ("kernel_regularizer", some .none), ("bias_regularizer", some .none), ("activity_regularizer", some .none),
    ("kernel_constraint", some .none), ("bias_constraint", some .none), ("conv_op", some .none)]
  keys := ["filters", "kernel_size", "strides", "padding", "data_format", "dilation_rate", "groups", "activation", "use_bias",
    "kernel_initializer", "bias_initializer", "kernel_regularizer", "bias_regularizer", "activity_regularizer", "kernel_constraint",
    "bias_constraint"]

/-- `tf.keras.layers.Activation`. Base of layers/misc.py line 31. -/
def kerasActivation : Part where
  params := [("activation", none)]
  keys := ["activation"]

/-- `HLayerBase`, base.py lines 44-66 (`do_adapt_kernel_bits` is popped on line 55) and 248-255 -/
def hLayerBase : Part where
  params := [("kq_conf", some .none), ("paq_conf", some .none), ("beta", some (.num 0)), ("do_adapt_kernel_bits", some (.bool true))]
  keys := ["kq_conf", "paq_conf", "beta"]

/-- `HDense`, dense.py lines 11-45 and 88-93; the remaining arguments are handed on -/
def hDense : Part where
  params := [("parallel_factor", some .none)]
  keys := ["parallel_factor"]

/-- `HConv`, conv.py lines 12-72 and 137-142; `conv_op` replaces the convolution -/
def hConv : Part where
  params := [("parallel_factor", some (.num 1))]
  keys := ["parallel_factor"]

/-- `HBatchNormBase`, batchnorm_base.py lines 10-47; no `get_config`. `axis` is set by the fused layers themselves (dense.py line 140,
conv.py line 325). -/
def hBatchNormBase : Part where
  params := [("momentum", some (.num (99 / 100))), ("epsilon", some (.num (1 / 1000))), ("center", some (.bool true)),
    ("scale", some (.bool true)), ("beta_initializer", some (.str "zeros")), ("gamma_initializer", some (.str "ones")),
    ("moving_mean_initializer", some (.str "zeros")), ("moving_variance_initializer", some (.str "ones")),
    ("beta_regularizer", some .none), ("gamma_regularizer", some .none), ("beta_constraint", some .none),
    ("gamma_constraint", some .none)]
  keys := []

/-- `HDense(HLayerBase, Dense)`, dense.py line 10 -/
def HDense : Cls := [hDense, hLayerBase, kerasDense, kerasLayer]

/-- `HConv1D`, `HConv2D`: `HConv(HLayerBase, Conv)`, conv.py lines 11 and 145-255 -/
def HConvND : Cls := [hConv, hLayerBase, kerasConv, kerasLayer]

/-- `HDenseBatchNorm(HDense, HBatchNormBase)`, dense.py line 97 -/
def HDenseBatchNorm : Cls := [hDense, hBatchNormBase, hLayerBase, kerasDense, kerasLayer]

/-- `HConv1DBatchNorm`, `HConv2DBatchNorm`: `HConvBatchNorm(HConv, HBatchNormBase)`, conv.py line 257 -/
def HConvNDBatchNorm : Cls := [hConv, hBatchNormBase, hLayerBase, kerasConv, kerasLayer]

/-- `HQuantize(HLayerBase)`, misc.py lines 13-20 -/
def HQuantize : Cls := [hLayerBase, kerasLayer]

/-- `HActivation(HLayerBase, Activation)`, misc.py lines 30-33 -/
def HActivation : Cls := [hLayerBase, kerasActivation, kerasLayer]

/-- `HAdd(HLayerBase, _Merge)`, misc.py lines 61-62 -/
def HAdd : Cls := [hLayerBase, kerasLayer]

/-- all keywords of a class, the first class on the resolution order first.
layers/base.py line 44, layers/dense.py lines 11-28, layers/conv.py lines 13-40, layers/batchnorm_base.py lines 11-27. -/
def params (c : Cls) : List (String × Option V) := c.flatMap (·.params)

/-- the keys of `get_config()`.
layers/base.py lines 248-255, layers/dense.py lines 88-93, layers/conv.py lines 137-142. -/
def keys (c : Cls) : List String := c.flatMap (·.keys)

/-- keyword arguments of a call. `**kwargs` of layers/base.py line 44. -/
abbrev Kwargs := List (String × V)

/-- what the constructor makes of an argument before storing it. base.py lines 47-49: `kq_conf or get_default_kq_conf()`; `dk`, `dp`: the
defaults at the time of the call. -/
def store (dk dp : V) (n : String) (v : V) : V :=
  if n = "kq_conf" ∧ v = .none then dk
  else if n = "paq_conf" ∧ v = .none then dp
  else v

/-- a layer object: the settings it stores.
The attributes set by layers/base.py lines 44-66, layers/dense.py line 45, layers/conv.py line 71, layers/batchnorm_base.py lines 30-47. -/
abbrev Inst := String → Option V

/-- `cls(**kw)`: unknown keywords and missing arguments raise `TypeError`; every setting gets the given value or its default.
layers/base.py lines 44-66, layers/dense.py lines 29-46, layers/conv.py lines 42-72, layers/batchnorm_base.py lines 29-47. -/
def construct (dk dp : V) (c : Cls) (kw : Kwargs) : Except String Inst :=
  if ¬ kw.all fun e => ((params c).lookup e.1).isSome then .error "TypeError: unexpected keyword argument"
  else if ¬ (params c).all fun p => p.2.isSome || (kw.lookup p.1).isSome then .error "TypeError: missing argument"
  else .ok fun n => match (params c).lookup n with
    | none => none
    | some d => match kw.lookup n with
      | some v => some (store dk dp n v)
      | none => d.map (store dk dp n)

/-- `layer.get_config()`: the stored settings under the keys of all classes.
layers/base.py lines 248-255, layers/dense.py lines 88-93, layers/conv.py lines 137-142. -/
def getConfig (c : Cls) (a : Inst) : Kwargs :=
  (keys c).filterMap fun k => (a k).map fun v => (k, v)

/-- saving a layer and loading it: `cls.from_config(layer.get_config())`.
layers/base.py lines 248-255 and 44-66; the classes are registered at layers/dense.py lines 9 and 96, layers/conv.py lines 145 and 201. -/
def reload (dk dp : V) (c : Cls) (a : Inst) : Except String Inst := construct dk dp c (getConfig c a)

/-! ### Weights -/

/-- shapes of `layer.weights`, trainable ones first, of a fused batch-norm layer with `u` channels, batchnorm_base.py lines 54-94. `tr`, `ntr`: the shapes of
the weights that do not belong to the normalisation (kernel, bias and bitwidths; `beta`, `bops`). -/
def bnSlots (tr ntr : List (List ℕ)) (u : ℕ) (useBias center scale : Bool) : List (List ℕ) :=
  tr ++ (if center && useBias then [[u]] else []) ++ (if scale then [[u]] else []) ++
  ntr ++ (if center && useBias then [[u]] else [[]]) ++ (if scale then [[u]] else [[]])

/-- `load_weights_from_hdf5_group`: the number of weights and their shapes must agree.
Keras; the weights are those of layers/base.py lines 113-139 and layers/batchnorm_base.py lines 63-92. -/
def weightsLoad (saved have_ : List (List ℕ)) : Except String Unit :=
  if saved.length ≠ have_.length then .error "Weight count mismatch"
  else if saved ≠ have_ then .error "Shape mismatch" else .ok ()

/-- a value used as a number or a flag. layers/batchnorm_base.py lines 31-34. -/
def V.toNum : V → ℚ
  | .num q => q
  | _ => 0

/-- Python truth value. layers/batchnorm_base.py lines 59, 63, 79. -/
def V.truthy : V → Bool
  | .bool b => b
  | .num q => decide (q ≠ 0)
  | .none => false
  | .str s => s ≠ ""
  | .obj _ => true

/-- the fused layer after loading: settings that `get_config` does not report (`momentum`, `epsilon`, `center`, `scale`) take the
constructor's defaults, the rest and all weights are restored; the weight shapes must agree.
layers/base.py lines 248-255, layers/batchnorm_base.py lines 11-47. -/
def reloadBN (c : Cls) (tr ntr : List (List ℕ)) (u : ℕ) (b : BNLayer) : Except String BNLayer := do
  let a : Inst := fun n =>
    if n = "momentum" then some (.num b.momentum) else if n = "epsilon" then some (.num b.eps)
    else if n = "center" then some (.bool b.center) else if n = "scale" then some (.bool b.scale)
    else if n = "use_bias" then some (.bool b.useBias)
    else if n = "units" ∨ n = "filters" then some (.num u) else if n = "kernel_size" then some (.obj 0) else some .none
  let a' ← reload .none .none c a
  let get := fun n => (a' n).getD .none
  weightsLoad (bnSlots tr ntr u b.useBias b.center b.scale)
    (bnSlots tr ntr u (get "use_bias").truthy (get "center").truthy (get "scale").truthy)
  return { b with
    momentum := (get "momentum").toNum
    eps := (get "epsilon").toNum
    center := (get "center").truthy && (get "use_bias").truthy
    scale := (get "scale").truthy
    useBias := (get "use_bias").truthy }

/-! ### Fixed-point quantizers and look-up tables -/

/-- a `FixedPointQuantizer` layer, fixed_point_quantizer.py lines 149-176. `overrides`: the dict of hls4ml overrides, `V.none` not given -/
structure PQuant where
  shape : List ℕ
  arr : List KBI
  R : Rnd
  S : Sat
  overrides : V
  deriving DecidableEq

/-- `FixedPointQuantizer(k, b, i, RND, SAT, overrides)`, lines 149-176, with arrays of shape `shape`; `obj 0` is `{'layers': {}}` -/
def PQuant.init (shape : List ℕ) (arr : List (ℤ × ℤ × ℤ)) (R : Rnd) (S : Sat) (overrides : V) : PQuant :=
  ⟨shape, arr.map fun t => KBI.init t.1 t.2.1 t.2.2, R, S, if overrides = .none then .obj 0 else overrides⟩

/-- what `get_config` returns, lines 211-224 (the name and dtype of the layer aside) -/
structure PQuantConf where
  shape : List ℕ
  R : Rnd
  S : Sat
  overrides : V

/-- `FixedPointQuantizer.get_config`, lines 211-224: refuses signs other than 0 and 1, replaces negative numbers of bits by 0 in the
layer itself. The layer afterwards and the config. (`fusible`, line 223, is only read by hls4ml.) -/
def PQuant.getConfig (q : PQuant) : Except String (PQuant × PQuantConf) :=
  if ¬ q.arr.all fun t => t.keepNegative == 0 || t.keepNegative == 1 then .error "Illegal bitwidth config: keep_negative must be 0 or 1."
  else
    let q := if q.arr.all fun t => decide (0 ≤ t.bits) then q
      else { q with arr := q.arr.map fun t => { t with bits := max t.bits 0 } }
    .ok (q, ⟨q.shape, q.R, q.S, q.overrides⟩)

/-- `FixedPointQuantizer.from_config`, lines 226-233 -/
def PQuant.fromConfig (c : PQuantConf) : PQuant :=
  PQuant.init c.shape (List.replicate (prodL c.shape) (-128, -128, -128)) c.R c.S c.overrides

/-- assigning the saved `keep_negative`, `bits`, `integers`.
The variables of proxy/fixed_point_quantizer.py lines 165-167. -/
def PQuant.setWeights (q : PQuant) (shape : List ℕ) (arr : List KBI) : Except String PQuant :=
  if shape ≠ q.shape then .error "Shape mismatch" else .ok { q with arr := arr }

/-- saving a quantizer and loading it. The config is taken first, then the weights are written.
proxy/fixed_point_quantizer.py lines 211-233. -/
def PQuant.reload (q : PQuant) : Except String PQuant := do
  let (q', c) ← q.getConfig
  (PQuant.fromConfig c).setWeights q'.shape q'.arr

/-- `FixedPointQuantizer.call` at position `p` of a sample of shape `outShape`, fixed_point_quantizer.py lines 178-182 -/
def PQuant.call (q : PQuant) (outShape : List ℕ) (x : ℚ) (p : ℕ) : ℚ :=
  (q.arr.getD (elemOf outShape q.shape p) ⟨0, 0, 0⟩).apply q.R q.S x

/-- saving a `UnaryLUT` and loading it, unary_lut.py lines 20-49 and 77-83: the types come from the config, `build` makes a table of `2^sum(kif_in)`
zeros, the saved table is assigned to it -/
def lutReload (limit : ℤ) (L : Lut) : Except String Lut :=
  if ¬ L.kifIn.sum > 0 then .error "Input to activation is constantly zero"
  else if ¬ L.kifOut.sum > 0 then .error "Output of activation is constantly zero"
  else if limit > 0 ∧ ¬ p2 L.kifIn.sum < limit then .error "Input to activation is too large"
  else if L.table.length ≠ 2 ^ L.kifIn.sum.toNat then .error "Shape mismatch"
  else .ok ⟨L.kifIn, L.kifOut, L.table⟩

/-! ### Kernel bits adaption

`fbw`: the kernel bitwidths (of any type `F`); `adapt`: `adapt_bw_bits` on the kernel of that moment; `opt`: what the optimizer makes of the bitwidths. -/

/-- the part of a layer that decides whether the kernel bitwidths are adapted: `_do_adapt_kernel_bits`, `_delayed_kernel_bits_adaption` (base.py lines
55-56, dense.py line 152) -/
structure Adapting (F : Type) where
  fbw : F
  doAdapt : Bool
  delayed : Bool

/-- a step in the life of a layer.
layers/base.py lines 68-70 and 125-127, layers/dense.py lines 161-163, layers/conv.py lines 342-344. -/
inductive Ev (F : Type)
  /-- a training step: `forward` with `training=True`, then the optimizer -/
  | train (adapt opt : F → F)
  /-- inference -/
  | infer
  /-- `model.save` and `load_model` -/
  | saveLoad

/-- `init_quantizers`, base.py lines 113-128: adapts at once unless the layer delays it -/
def Adapting.build {F : Type} (adapt : F → F) (f : F) (doAdapt delayed : Bool) : Adapting F :=
  if doAdapt && !delayed then ⟨adapt f, false, delayed⟩ else ⟨f, doAdapt, delayed⟩

/-- one step. Training: dense.py lines 156-158 and conv.py lines 340-342 (fused layers; the others never adapt in `forward`, and do not delay).
Loading: the constructor sets `do_adapt_kernel_bits` to its default `True` (it is not in the config), the layer is built, then the saved bitwidths are
assigned. -/
def Adapting.step {F : Type} (s : Adapting F) : Ev F → Adapting F
  | .train adapt opt => if s.doAdapt && s.delayed then ⟨opt (adapt s.fbw), false, s.delayed⟩ else ⟨opt s.fbw, s.doAdapt, s.delayed⟩
  | .infer => s
  | .saveLoad => { Adapting.build id s.fbw true s.delayed with fbw := s.fbw }

/-- a whole history.
layers/base.py lines 125-127, layers/dense.py lines 161-163, layers/conv.py lines 342-344. -/
def Adapting.run {F : Type} (s : Adapting F) (es : List (Ev F)) : Adapting F := es.foldl Adapting.step s

/-! ### Quantizer state -/

/-- the activation quantizer of a loaded layer: `fbw` is a weight of the layer (base.py lines 133-141); the recorded extrema are
variables of the quantizer object, which is not a layer, so they are not saved; `build` creates them reset (quantizer.py lines 104-127). -/
def reloadState (s : QState) : QState := { fbw := s.fbw, mn := fun _ => ⊤, mx := fun _ => ⊥ }

/-- the states of all layers of a loaded model; `record_minmax` is a plain attribute (base.py line 53) -/
def reloadStates (ss : List LState) : List LState := ss.map fun s => ⟨reloadState s.q, false⟩

end HGQ.Serialize
