import Verif.Model.Layer

/-!
The `activation` argument of the layers with a kernel: what is accepted, what is applied, and what the proxy makes of it.

Sources: `/repo/src/HGQ/layers/base.py` lines 58-66 and 89-91, `/repo/src/HGQ/proxy/convert.py` lines 240-247 and 315-331.
-/

namespace HGQ

/-- a value given as `activation`: `None`, a string, the function objects `tf.keras.activations.relu` and
`tf.keras.activations.linear`, or any other callable with its `__name__` (`tf.nn.relu` is one of these: it has the name `relu` but
is not the object `tf.keras.activations.relu`).
The argument `activation` read at layers/base.py line 58; its cases are those told apart at lines 59-64. -/
inductive ActArg
  | none
  | str (s : String)
  | kerasRelu
  | kerasLinear
  | callable (name : String) (f : ℚ → ℚ)

/-- the check in `HLayerBase.__init__`, base.py lines 58-64 (for layers other than `HActivation`) -/
def ActArg.check : ActArg → Bool
  | .none => true
  | .str s => decide (s.toLower ∈ ["relu", "linear"])
  | .kerasRelu => true
  | .kerasLinear => true
  | .callable name _ => decide (name.toLower ∈ ["relu", "linear"])

/-- the object stored as `self.activation`.
The attribute tested at layers/base.py line 91 and called at layers/dense.py line 70 and layers/conv.py line 125. -/
inductive Act
  | relu
  | linear
  | other (f : ℚ → ℚ)

/-- `tf.keras.activations.get`, called by the Keras base classes from `super().__init__`, base.py line 66: strings are looked up by
exact name (only the two names that pass the check are modelled), callables are stored as they are -/
def ActArg.get : ActArg → Except String Act
  | .none => .ok .linear
  | .str s => if s = "relu" then .ok .relu else if s = "linear" then .ok .linear else .error "Unknown activation function"
  | .kerasRelu => .ok .relu
  | .kerasLinear => .ok .linear
  | .callable _ f => .ok (.other f)

/-- constructing a layer with an `activation`, base.py lines 58-66 -/
def ActArg.init (a : ActArg) : Except String Act :=
  if a.check then a.get else .error "activation other than relu and linear are only supported for HActivation layer"

/-- `self.activation(z)`. layers/dense.py line 70, layers/conv.py line 125, layers/misc.py line 54. -/
def Act.apply : Act → ℚ → ℚ
  | .relu, z => HGQ.relu z
  | .linear, z => z
  | .other f, z => f z

/-- `_relu_act`, base.py lines 89-91: identity with the object `tf.keras.activations.relu` -/
def Act.isRelu : Act → Bool
  | .relu => true
  | _ => false

/-- a layer with a kernel, constructed with an activation; `L.reluAct` is what `_relu_act` returns.
layers/base.py lines 58-66 and 89-91. -/
def LinLayer.withAct (L : LinLayer) (a : Act) : LinLayer := { L with reluAct := a.isRelu }

/-- inference output of the layer at position `p`: quantizer, then `self.activation`; dense.py lines 69-70, conv.py lines 124-125 -/
def LinLayer.outWith (L : LinLayer) (a : Act) (s : QState) (x : List ℚ) (p : ℕ) : ℚ := a.apply ((L.withAct a).quant s x p)

/-- output of its proxy at position `p`: the Keras layer is given the activation `linear` (convert.py lines 240-243) and a ReLU is
inserted if `_relu_act` (convert.py lines 315-331) -/
def LinLayer.proxyWith (L : LinLayer) (a : Act) (s : QState) (S : Sat) (x : List ℚ) (p : ℕ) : ℚ := (L.withAct a).proxyOut s S x p

end HGQ
