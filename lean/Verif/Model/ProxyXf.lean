import Verif.Model.Convert

/-!
Model of `ProxyLayerXFormer.__call__` (`/repo/src/HGQ/proxy/convert.py` lines 261-348) as far as the kind of layer it
returns is concerned.
-/

namespace HGQ.Convert

/-- kinds of layers; `d` carries whatever else distinguishes the layer.
The classes told apart at proxy/convert.py lines 278-348. -/
inductive LK (κ : Type)
  /-- `HQuantize` -/
  | hQuantize (d : κ)
  /-- `Signature` -/
  | signature (d : κ)
  /-- any other `HLayerBase`, called on `nIn` tensors: `act` if it is also an `Activation` (`HActivation`), `linear` if its
  activation is the identity, `relu` if `_relu_act`, `known` if Keras has the layer class of `to_keras_layer` (lines
  248-254) -/
  | hLayer (nIn : ℕ) (act linear relu known : Bool) (d : κ)
  /-- `PLayerBase`; `dropout` for `PDropout` -/
  | pLayer (dropout known : Bool) (d : κ)
  /-- `keras.layers.Dropout` -/
  | dropout (d : κ)
  /-- `keras.layers.Activation` -/
  | activation (linear : Bool) (d : κ)
  /-- `FixedPointQuantizer` made for the layer described by `d`; `second` for the one behind the relu -/
  | fixedQuant (second : Bool) (d : κ)
  /-- the `ReLU` layer of line 324 -/
  | reluLayer
  /-- any other Keras layer; `supported` if hls4ml is not installed or has a handler for it (lines 282-287) -/
  | plain (supported : Bool) (d : κ)
  deriving DecidableEq, Repr

/-- the Keras layer made by `to_keras_layer`, lines 224-258: an `Activation` for `HActivation` -/
def kerasOf {κ : Type} (act linear : Bool) (d : κ) : LK κ := if act then .activation linear d else .plain true d

/-- `ProxyLayerXFormer.__call__`, lines 278-348. Dispatch picks the first registered class along the class hierarchy:
`HQuantize` before `HLayerBase`, `Signature` and `PDropout` by `Signature` and `PLayerBase`. New layers are new objects;
`id` is not looked at for them. The name of
the `ReLU` layer is Keras' default (`re_lu`, `re_lu_1`, …; the counter is left out). Layers made by the conversion are supported by hls4ml. -/
def proxyXf {κ : Type} : Xf (LK κ) := fun id name op =>
  match op with
  | .hQuantize d => .ok (.new (.leaf id name (.fixedQuant false d)))
  | .signature d => .ok (.new (.leaf id name (.fixedQuant false d)))
  | .hLayer nIn act linear relu known d =>
    if !known then .error "Unknown layer type"
    else
      let ins := List.range nIn
      let k : Lay (LK κ) := .leaf id name (kerasOf act linear d)
      let q1 : Lay (LK κ) := .leaf id (name ++ "_quantizer") (.fixedQuant false d)
      if !act && relu then
        .ok (.new (.model ins
          [(nIn, k, ins.map fun n => (n, 0)), (nIn + 1, q1, [(nIn, 0)]),
           (nIn + 2, .leaf id "re_lu" .reluLayer, [(nIn + 1, 0)]),
           (nIn + 3, .leaf id (name ++ "_relu_quantizer") (.fixedQuant true d), [(nIn + 2, 0)])]
          [(nIn + 3, 0)]))
      else
        .ok (.new (.model ins [(nIn, k, ins.map fun n => (n, 0)), (nIn + 1, q1, [(nIn, 0)])] [(nIn + 1, 0)]))
  | .pLayer dropout known d =>
    if !known then .error "Unknown layer type"
    else .ok (.new (.leaf id name (if dropout then .dropout d else .plain true d)))
  | .dropout _ => .ok .drop
  | .activation linear _ => .ok (if linear then .drop else .same)
  | .fixedQuant _ _ => .ok .same
  | .reluLayer => .ok .same
  | .plain supported _ => if supported then .ok .same else .error "not supported by hls4ml"

end HGQ.Convert
