import Verif.Model.Adapt

/-!
When the kernel bitwidths are adapted (`adapt_bw_bits`), with Keras' compiled training and symbolic construction.

`forward` of `HDenseBatchNorm`, the fused convolutions and `HBatchNormalization` asks Python flags whether to adapt, and then
clears a flag (`/repo/src/HGQ/layers/dense.py` lines 161-163, `conv.py` lines 342-344, `batchnorm_base.py` lines 202-204).
`model.fit` runs a `tf.function`: the Python code runs once per input signature, while tracing, and the operations it issued run
on each step. When a functional model is put together, layers are called on symbolic inputs: the Python code runs and the
operations are thrown away.
-/

namespace HGQ.Compiled

/-- which `forward` a layer has. dense.py lines 47-59 and 159-177, conv.py lines 102-114 and 340-359,
batchnorm_base.py lines 186-218. -/
inductive Kind
  /-- `HDense`, `HConv1D`, …: `forward` never adapts -/
  | plain
  /-- `HDenseBatchNorm`, `HConv1DBatchNorm`, `HConv2DBatchNorm` -/
  | fused
  /-- `HBatchNormalization` -/
  | batchNorm
  deriving DecidableEq, Repr

/-- `_do_adapt_kernel_bits` and `_delayed_kernel_bits_adaption`, base.py lines 55-56 -/
structure Flags where
  doAdapt : Bool
  delayed : Bool
  deriving DecidableEq, Repr

/-- the Python code at the head of `forward`: whether it calls `adapt_bw_bits`, and the flags afterwards.
dense.py lines 161-163 and conv.py lines 342-344 (`fused`), batchnorm_base.py lines 202-204 (`batchNorm`). -/
def Flags.forward (k : Kind) (training : Bool) (fl : Flags) : Bool × Flags :=
  match k with
  | .plain => (false, fl)
  | .fused => if training && fl.doAdapt && fl.delayed then (true, { fl with doAdapt := false }) else (false, fl)
  | .batchNorm => if fl.doAdapt && fl.delayed then (true, { fl with delayed := false }) else (false, fl)

/-- a layer: kernel bitwidths (of any type), flags, and the compiled functions of its model: for a function (training or not)
and an input signature, whether tracing issued the adaption. base.py lines 55-56 and 113-128. -/
structure Layer (F : Type) where
  fbw : F
  flags : Flags
  cache : List ((Bool × ℕ) × Bool)

/-- `init_quantizers`, base.py lines 125-127: layers that do not delay it adapt when they are built (`adapt` on the kernel) -/
def Layer.build {F : Type} (adapt : F → F) (f : F) (doAdapt delayed : Bool) : Layer F :=
  if doAdapt && !delayed then ⟨adapt f, ⟨false, delayed⟩, []⟩ else ⟨f, ⟨doAdapt, delayed⟩, []⟩

/-- uses of a layer. `adapt`: what `adapt_bw_bits` does with the weights and the batch of that moment; `opt`: what the rest of
the step (clipping, optimizer) does to the bitwidths. layers/base.py lines 145-155. -/
inductive Use (F : Type)
  /-- the call on symbolic inputs when the model is put together -/
  | symbolic
  /-- `model(x)` -/
  | call (adapt : F → F)
  /-- `model.predict`, `model.evaluate` -/
  | predict (sig : ℕ) (adapt : F → F)
  /-- a step of a training loop that is not compiled -/
  | eagerStep (adapt opt : F → F)
  /-- a step of `model.fit` -/
  | fitStep (sig : ℕ) (adapt opt : F → F)
  /-- `model.compile`: drops the compiled functions -/
  | compile

/-- running `forward` through the compiled function of a signature: it is traced if it was not yet; then its operations run.
layers/dense.py lines 161-163, layers/conv.py lines 342-344, layers/batchnorm_base.py lines 202-204. -/
def Layer.compiled {F : Type} (k : Kind) (s : Layer F) (training : Bool) (sig : ℕ) (adapt opt : F → F) : Layer F :=
  match s.cache.lookup (training, sig) with
  | some b => { s with fbw := opt (if b then adapt s.fbw else s.fbw) }
  | none =>
    let (b, fl) := s.flags.forward k training
    ⟨opt (if b then adapt s.fbw else s.fbw), fl, ((training, sig), b) :: s.cache⟩

/-- one use. layers/base.py lines 145-155, layers/dense.py lines 161-163, layers/conv.py lines 342-344,
layers/batchnorm_base.py lines 202-204. -/
def Layer.use {F : Type} (k : Kind) (s : Layer F) : Use F → Layer F
  | .symbolic => { s with flags := (s.flags.forward k false).2 }
  | .call adapt =>
    let (b, fl) := s.flags.forward k false
    { s with fbw := if b then adapt s.fbw else s.fbw, flags := fl }
  | .predict sig adapt => s.compiled k false sig adapt id
  | .eagerStep adapt opt =>
    let (b, fl) := s.flags.forward k true
    { s with fbw := opt (if b then adapt s.fbw else s.fbw), flags := fl }
  | .fitStep sig adapt opt => s.compiled k true sig adapt opt
  | .compile => { s with cache := [] }

/-- a history of uses. layers/base.py lines 145-155. -/
def Layer.run {F : Type} (k : Kind) (s : Layer F) (us : List (Use F)) : Layer F := us.foldl (Layer.use k) s

end HGQ.Compiled
