import Verif.Model.FixedPoint

/-!
Model of `/repo/src/HGQ/proxy/plugins/qkeras.py`: proxy layers for QKeras layers.
-/

namespace HGQ.Qkeras

/-- the attribute `alpha` of a QKeras quantizer. Read at proxy/plugins/qkeras.py line 51. -/
inductive Alpha
  | none
  | num (a : ℚ)
  | auto (mode : String)
  deriving DecidableEq, Repr

/-- activations of a QKeras layer, with the attributes the conversion could look at; the classes of the dispatch of qkeras.py lines
37-93. `other` is any other quantizer class (`isQk`) or activation function -/
inductive Quant
  | bits (bits integer : ℤ) (keepNegative : Bool) (symmetric : ℤ) (alpha : Alpha)
  | relu (bits integer : ℤ) (negativeSlope : ℚ) (useSigmoid : Bool)
  | binary (use01 : Bool) (alpha : Alpha)
  | ternary
  | po2
  | linear
  | other (isQk : Bool) (f : ℚ → ℚ)

/-- layers made by the conversion. The layers made at proxy/plugins/qkeras.py lines 46, 65, 72-73, 83. -/
inductive Layer
  | fixed (q : KBI) (R : Rnd) (S : Sat)
  | relu
  | qbinary
  | activation (f : ℚ → ℚ)

/-- what these layers compute, element-wise; `qkeras.binary()` is the sign with 0 positive.
The layers made at proxy/plugins/qkeras.py lines 46, 65, 72-73, 83. -/
def Layer.apply : Layer → ℚ → ℚ
  | .fixed q R S, x => q.apply R S x
  | .relu, x => max x 0
  | .qbinary, x => if 0 ≤ x then 1 else -1
  | .activation f, x => f x

/-- a sequence of layers, qkeras.py lines 149-150 -/
def run (ls : List Layer) (x : ℚ) : ℚ := ls.foldl (fun y l => l.apply y) x

/-- `FixedPointQuantizer(k, b, i, R, S)`; parameters outside int8 are not modelled.
proxy/fixed_point_quantizer.py lines 149-176 as called at proxy/plugins/qkeras.py lines 65, 72, 83. -/
def mkFixed (k b i : ℤ) (R : Rnd) (S : Sat) : Layer := .fixed (KBI.init k b i) R S

/-- `qkeras_quantizer_to_layers(quantizer, SAT)`, qkeras.py lines 37-93. The function for the ternary quantizers takes one argument, the
call of line 138 passes two. -/
def quantizerToLayers (q : Quant) (S : Sat) : Except String (List Layer) :=
  match q with
  | .linear => .ok []
  | .other _ f => .ok [.activation f]
  | .bits b integer kn sym alpha =>
    if alpha ≠ .num 1 then .error "AssertionError"
    else
      let k : ℤ := kn.toInt
      let i := integer + k
      let S := if sym ≠ 0 then .SAT_SYM else S
      if sym ≠ 0 ∧ sym ≠ 1 then .error "ValueError" else .ok [mkFixed k b i .RND_CONV S]
  | .relu b i _ _ => .ok [.relu, mkFixed 0 b i .RND_CONV .SAT]
  | .binary use01 _ => if use01 then .error "NotImplementedError" else .ok [.qbinary, mkFixed 1 2 2 .RND .WRAP]
  | .ternary => .error "TypeError"
  | .po2 => .error "ValueError"

/-- the words of `blacklist`, qkeras.py line 110 -/
def blacklist : List String := ["quantize", "kernel_range", "bias_range", "constraint", "activation", "initializer"]

/-- `k_rm in k` for strings. proxy/plugins/qkeras.py line 113. -/
def contains (k w : String) : Bool := decide (w.toList <:+: k.toList)

/-- the inner loop of lines 112-115 for the key `k`: `continue` goes on with the next word, so a second match deletes a missing key -/
def dropKey {α : Type} (k : String) : List String → List (String × α) → Except String (List (String × α))
  | [], conf => .ok conf
  | w :: ws, conf =>
    if contains k w then
      if conf.any (fun e => e.1 == k) then dropKey k ws (conf.filter fun e => !(e.1 == k)) else .error "KeyError"
    else dropKey k ws conf

/-- the outer loop of lines 111-115 -/
def dropKeys {α : Type} : List String → List (String × α) → Except String (List (String × α))
  | [], conf => .ok conf
  | k :: ks, conf => do dropKeys ks (← dropKey k blacklist conf)

/-- the configuration given to the Keras layer, lines 101-117 -/
def filterConf {α : Type} (conf : List (String × α)) : Except String (List (String × α)) := dropKeys (conf.map (·.1)) conf

/-- a QKeras layer: `op kernel bias x` is what the Keras layer of the same configuration computes.
The attributes read at proxy/plugins/qkeras.py lines 96-126. -/
structure QLayer where
  /-- Keras has the class (lines 97-99) -/
  known : Bool
  /-- `QActivation` or `Activation` -/
  isAct : Bool
  /-- the attribute `activation` (`quantizer` for `QActivation`), if any -/
  act : Option Quant
  op : Option (List ℚ) → Option (List ℚ) → List ℚ → List ℚ
  kernel : Option (List ℚ)
  /-- present and `use_bias` -/
  bias : Option (List ℚ)
  kernelQ : Option (ℚ → ℚ)
  biasQ : Option (ℚ → ℚ)
  /-- the filtered configuration, if building it does not fail -/
  confOk : Except String Unit

/-- the quantized weights: `q = layer.kernel_quantizer_internal or (lambda x: x)`, lines 120-125 -/
def quantWeights (q : Option (ℚ → ℚ)) (w : Option (List ℚ)) : Option (List ℚ) := w.map fun l => l.map (q.getD id)

/-- is it an instance of a QKeras quantizer class, line 108 -/
def Quant.isQk : Quant → Bool
  | .linear => false
  | .other b _ => b
  | _ => true

/-- `qlayer_to_keras_layer`, lines 96-126, as the function the Keras layer computes (`none`: no layer). Without its argument
`activation`, which is removed from the configuration, an `Activation` layer cannot be made. -/
def toKerasLayer (L : QLayer) : Except String (Option (List ℚ → List ℚ)) :=
  if !L.known then .error "ValueError"
  else if L.isAct && (L.act.map Quant.isQk).getD false then .ok none
  else match L.confOk with
    | .error e => .error e
    | .ok _ => if L.isAct then .error "TypeError" else .ok (some (L.op (quantWeights L.kernelQ L.kernel) (quantWeights L.biasQ L.bias)))

/-- `qlayer_to_proxy_layer`, lines 129-151, as the function computed by the proxy -/
def toProxy (L : QLayer) (S : Sat) : Except String (List ℚ → List ℚ) := do
  let k ← toKerasLayer L
  match L.act with
  | none => match k with
    | none => throw "AssertionError"
    | some f => return f
  | some a =>
    let ls ← quantizerToLayers a S
    return fun x => ((k.getD id) x).map (run ls)

end HGQ.Qkeras
