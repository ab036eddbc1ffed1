import Mathlib.Data.List.Basic
import Mathlib.Data.Int.Notation
import Mathlib.Data.Nat.Notation

/-!
Quantizer configurations: the default dicts, layers holding references to dicts, and the rounding strategy chosen when a layer is
built.

Sources: `/repo/src/HGQ/utils/utils.py` lines 21-75, `/repo/src/HGQ/layers/base.py` lines 44-49, 93-143,
`/repo/src/HGQ/layers/misc.py` lines 35-37, `/repo/src/HGQ/quantizer/quantizer.py` lines 61-79. Python dicts are mutable objects:
the state is a heap of dicts, and variables hold addresses. Values of dict entries are taken immutable (the regularizer object
is shared by all copies in the code).
-/

namespace HGQ.Config

/-- a value of a dict entry. The entries of the dicts at utils/utils.py lines 21-43. -/
inductive Val
  | str (s : String)
  | int (n : ℤ)
  /-- anything else (tuples, floats, None, regularizer objects) -/
  | other (n : ℕ)
  deriving DecidableEq, Repr

/-- a dict, keys in insertion order. utils/utils.py lines 21-43. -/
abbrev Dict := List (String × Val)

/-- `d.keys()`. utils/utils.py lines 57 and 65. -/
def Dict.keys (d : Dict) : List String := d.map Prod.fst

/-- `d.get(k)`. layers/base.py line 105, layers/misc.py lines 36 and 39. -/
def Dict.get (d : Dict) (k : String) : Option Val := (d.find? fun e => e.1 == k).map Prod.snd

/-- `d[k] = v`. layers/misc.py line 37. -/
def Dict.set (d : Dict) (k : String) (v : Val) : Dict :=
  if k ∈ d.keys then d.map fun e => if e.1 = k then (k, v) else e else d ++ [(k, v)]

/-- classes of layers that differ in how they treat their configuration.
`HActivation.post_build`, layers/misc.py lines 35-51; `init_quantizers`, layers/base.py lines 110-143. -/
inductive Kind
  /-- `HActivation`, misc.py lines 30-58 -/
  | activation
  /-- every other `HLayerBase` -/
  | other
  deriving DecidableEq, Repr

/-- a layer object: its class, its `kq_config` and `paq_config` (addresses), `_has_kernel` and `can_bias_cover_rnd` (base.py
lines 72-87, modelled in `Verif/Model/Layer.lean`), and, once built, the rounding strategy of its output quantizer -/
structure LayerC where
  kind : Kind
  kq : ℕ
  paq : ℕ
  hasKernel : Bool
  canCover : Bool
  rnd : Option Val := none
  deriving DecidableEq, Repr

/-- module and heap state: all dicts ever created, the two default variables (addresses), all layers, and the addresses the program
holds in its own variables.
The globals of utils/utils.py lines 21 and 33 and the attributes set at layers/base.py lines 47-50. -/
structure State where
  heap : List Dict
  kqDef : ℕ
  paqDef : ℕ
  layers : List LayerC
  vars : List ℕ

/-- the dict at an address.
Object references in utils/utils.py lines 46-67 and layers/base.py lines 47-50. -/
def State.dict (σ : State) (a : ℕ) : Dict := σ.heap.getD a []

/-- allocate a dict; its address is the old size of the heap.
`.copy()`, utils/utils.py lines 47 and 51. -/
def State.alloc (σ : State) (d : Dict) : State := { σ with heap := σ.heap ++ [d] }

/-- what a program can do; `v` is the number of one of its variables. The module's own variables are not among them.
The API: utils/utils.py lines 46-67, the constructor layers/base.py line 44, `build` layers/base.py lines 68-70, and writing to a dict. -/
inductive Op
  /-- `v = {...}` -/
  | literal (d : Dict)
  /-- `v = get_default_kq_conf()`, utils.py lines 46-47 -/
  | getKq
  /-- `v = get_default_paq_conf()`, utils.py lines 50-51 -/
  | getPaq
  /-- `set_default_kq_conf(v)`, utils.py lines 54-59 -/
  | setKq (v : ℕ)
  /-- `set_default_paq_conf(v)`, utils.py lines 62-67 -/
  | setPaq (v : ℕ)
  /-- `v[k] = x` -/
  | assign (v : ℕ) (k : String) (x : Val)
  /-- a layer's constructor with `kq_conf`, `paq_conf` given or `None`, base.py lines 44-49 -/
  | mkLayer (kind : Kind) (kq paq : Option ℕ) (hasKernel canCover : Bool)
  /-- `v = layer.kq_config` -/
  | readKq (l : ℕ)
  /-- `v = layer.paq_config` -/
  | readPaq (l : ℕ)
  /-- `layer.build(shape)`, base.py lines 68-143, misc.py lines 35-37 -/
  | build (l : ℕ)

/-- the assertion on the keys, utils.py lines 57-58 and 65-66 -/
def sameKeys (c d : Dict) : Bool := c.keys.all (· ∈ d.keys) && d.keys.all (· ∈ c.keys)

/-- `conf or get_default_conf()`, base.py lines 47-49: `None` and an empty dict are false. `conf` and `dflt` are addresses. -/
def State.confOr (σ : State) (conf : Option ℕ) (dflt : ℕ) : State × ℕ :=
  match conf with
  | some a => if (σ.dict a).isEmpty then (σ.alloc (σ.dict dflt), σ.heap.length) else (σ, a)
  | none => (σ.alloc (σ.dict dflt), σ.heap.length)

/-- `HGQ.from_config(config)` = `HGQ(**config)`: unknown keywords and missing required ones raise, quantizer.py line 61 -/
def fromConfig (d : Dict) : Except String Unit :=
  if d.keys.all (· ∈ ["init_bw", "skip_dims", "rnd_strategy", "exact_q_value", "dtype", "bw_clip", "trainable", "regularizer",
      "minmax_record"]) && ["init_bw", "skip_dims"].all (· ∈ d.keys) then .ok ()
  else .error "TypeError"

/-- `strategy_dict.get(rnd_strategy, -1) if isinstance(rnd_strategy, str) else rnd_strategy`, quantizer.py line 64 and utils.py
lines 70-75 -/
def strategyOf (v : Val) : Val :=
  match v with
  | .str "standard_round" => .int 0
  | .str "stochastic_round" => .int 1
  | .str "fast_uniform_noise_injection" => .int 2
  | .str "floor" => .int 3
  | .str _ => .int (-1)
  | v => v

/-- `post_build`: the change of the configuration made by `HActivation`, misc.py lines 35-37 -/
def State.preBuild (σ : State) (L : LayerC) : State :=
  match L.kind with
  | .activation =>
    if (σ.dict L.paq).get "rnd_strategy" = some (.str "auto") then
      { σ with heap := σ.heap.set L.paq ((σ.dict L.paq).set "rnd_strategy" (.str "standard_round")) }
    else σ
  | .other => σ

/-- the rounding strategy of the output quantizer: the one made by the quantizer's constructor (base.py line 130), replaced when
the configuration says 'auto' (base.py lines 105-106); errors of the constructors and of missing keys -/
def State.roundingOf (σ : State) (L : LayerC) : Except String Val := do
  if L.hasKernel then fromConfig (σ.dict L.kq)
  fromConfig (σ.dict L.paq)
  match (σ.dict L.paq).get "rnd_strategy" with
  | none => .error "KeyError"
  | some v => return if v = .str "auto" then .int (if L.canCover then 0 else 3) else strategyOf v

/-- `build` of layer number `l`; the changes made before an exception stay. Keras builds a layer once.
layers/base.py lines 68-70 and 93-143, layers/misc.py lines 35-51. -/
def State.build (σ : State) (l : ℕ) : State × Except String Unit :=
  match σ.layers[l]? with
  | none => (σ, .error "no such layer")
  | some L =>
    if L.rnd.isSome then (σ, .ok ()) else
    match (σ.preBuild L).roundingOf L with
    | .error e => (σ.preBuild L, .error e)
    | .ok r => ({ σ.preBuild L with layers := σ.layers.set l { L with rnd := some r } }, .ok ())

/-- one step of a program, and the exception it raises, if any.
utils/utils.py lines 46-67, layers/base.py lines 44-50 and 68-70. -/
def State.step (σ : State) : Op → State × Except String Unit
  | .literal d => ({ σ.alloc d with vars := σ.vars ++ [σ.heap.length] }, .ok ())
  | .getKq => ({ σ.alloc (σ.dict σ.kqDef) with vars := σ.vars ++ [σ.heap.length] }, .ok ())
  | .getPaq => ({ σ.alloc (σ.dict σ.paqDef) with vars := σ.vars ++ [σ.heap.length] }, .ok ())
  | .setKq v => match σ.vars[v]? with
    | none => (σ, .error "NameError")
    | some a => if sameKeys (σ.dict a) (σ.dict σ.kqDef) then ({ σ with kqDef := a }, .ok ()) else (σ, .error "AssertionError")
  | .setPaq v => match σ.vars[v]? with
    | none => (σ, .error "NameError")
    | some a => if sameKeys (σ.dict a) (σ.dict σ.paqDef) then ({ σ with paqDef := a }, .ok ()) else (σ, .error "AssertionError")
  | .assign v k x => match σ.vars[v]? with
    | none => (σ, .error "NameError")
    | some a => ({ σ with heap := σ.heap.set a ((σ.dict a).set k x) }, .ok ())
  | .mkLayer kind kq paq hasKernel canCover =>
    let r := σ.confOr (kq.bind fun v => σ.vars[v]?) σ.kqDef
    let r' := r.1.confOr (paq.bind fun v => σ.vars[v]?) σ.paqDef
    ({ r'.1 with layers := σ.layers ++ [⟨kind, r.2, r'.2, hasKernel, canCover, none⟩] }, .ok ())
  | .readKq l => match σ.layers[l]? with
    | none => (σ, .error "NameError")
    | some L => ({ σ with vars := σ.vars ++ [L.kq] }, .ok ())
  | .readPaq l => match σ.layers[l]? with
    | none => (σ, .error "NameError")
    | some L => ({ σ with vars := σ.vars ++ [L.paq] }, .ok ())
  | .build l => σ.build l

/-- a whole program; exceptions are caught.
Any program calling utils/utils.py lines 46-67 and layers/base.py lines 44-70. -/
def State.run (σ : State) (ops : List Op) : State := ops.foldl (fun σ op => (σ.step op).1) σ

/-- `DEFAULT_KERNEL_QUANTIZER_CONFIG`, utils.py lines 21-30 -/
def kqInit : Dict := [("init_bw", .int 2), ("skip_dims", .other 0), ("rnd_strategy", .str "standard_round"),
  ("exact_q_value", .other 1), ("dtype", .other 0), ("bw_clip", .other 2), ("trainable", .other 1), ("regularizer", .other 3)]

/-- `DEFAULT_PRE_ACTIVATION_QUANTIZER_CONFIG`, utils.py lines 33-43 -/
def paqInit : Dict := [("init_bw", .int 2), ("skip_dims", .other 4), ("rnd_strategy", .str "standard_round"),
  ("exact_q_value", .other 1), ("dtype", .other 0), ("bw_clip", .other 2), ("trainable", .other 1), ("regularizer", .other 3),
  ("minmax_record", .other 1)]

/-- the state after importing the library. utils/utils.py lines 21-43. -/
def State.init : State := ⟨[kqInit, paqInit], 0, 1, [], []⟩

end HGQ.Config
