import Verif.Model.Precision

/-!
Model of `/repo/src/HGQ/proxy/unary_lut.py`. The activation is an arbitrary function; its float32 result is taken as is
(the cast on line 74 belongs to the function).
-/

namespace HGQ

/-- the table of inputs built by `from_activation`, unary_lut.py lines 66-73 -/
def lutInputs (t : KIF) : List ℚ :=
  let N := 2 ^ (t.k + t.i + t.f).toNat
  if t.k ≠ 0 then
    let half := linspace 0 (p2 t.i - p2 (-t.f)) (N / 2)
    half ++ half.map (· - p2 t.i)
  else linspace (-p2 t.i * t.k) (p2 t.i - p2 (-t.f)) N

/-- a built `UnaryLUT`: input and output type and the stored table. proxy/unary_lut.py lines 25-34. -/
structure Lut where
  kifIn : KIF
  kifOut : KIF
  table : List ℚ
  deriving DecidableEq, Repr

/-- `sum(kif)`. proxy/unary_lut.py lines 21-24, 48, 96. -/
def KIF.sum (t : KIF) : ℤ := t.k + t.i + t.f

/-- `UnaryLUT.__init__` with a table, unary_lut.py lines 20-35. `limit` is `LUT_SIZE_LIMITATION` (line 13, 4096 unless
the environment says otherwise). -/
def Lut.init (limit : ℤ) (kifIn kifOut : KIF) (R : Rnd) (S : Sat) (table : List ℚ) : Except String Lut :=
  if ¬ kifIn.sum > 0 then .error "Input to activation is constantly zero"
  else if ¬ kifOut.sum > 0 then .error "Output of activation is constantly zero"
  else if limit > 0 ∧ ¬ p2 kifIn.sum < limit then .error "Input to activation is too large"
  else .ok ⟨kifIn, kifOut, table.map fun v =>
    gfixedQuantizer v kifOut.k (kifOut.k + kifOut.i + kifOut.f) (kifOut.k + kifOut.i) R S⟩

/-- `UnaryLUT.from_activation`, unary_lut.py lines 51-75. `hlsMax` is `HLS_MAX_ACTIVATION_LUT_SIZE` (line 65, 65536 by
default). -/
def Lut.fromActivation (limit hlsMax : ℤ) (phi : ℚ → ℚ) (kifIn : KIF) (out : KifRS) : Except String Lut :=
  if ¬ kifIn.sum > 0 then .error "Activation function is applied to an zero array."
  else if ¬ p2 kifIn.sum < hlsMax then .error "Input to activation function is too large"
  else Lut.init limit kifIn out.kif out.rnd out.sat ((lutInputs kifIn).map phi)

/-- `UnaryLUT.call` on one value, unary_lut.py lines 37-42 (`%` is the floor modulus). -/
def Lut.call (L : Lut) (x : ℚ) : ℚ :=
  L.table.getD (tfRound (x * p2 L.kifIn.f) % (L.table.length : ℤ)).toNat 0

/-- activation functions as far as `xfr_to_unary_lut` distinguishes them.
proxy/unary_lut.py lines 87-92. -/
inductive LutKind | softmax | relu | linear | other
  deriving DecidableEq, Repr

/-- `xfr_to_unary_lut`, unary_lut.py lines 86-100: `none` when the layer is returned unchanged. `isAct`: the layer is a
`keras.layers.Activation`. -/
def xfrToUnaryLut (limit hlsMax maxTableSize : ℤ) (isAct : Bool) (kind : LutKind) (phi : ℚ → ℚ) (kifsIn : List KIF)
    (out : KifRS) : Except String (Option Lut) :=
  if ¬ isAct then .ok none
  else if kind = .softmax then .ok none
  else if kind = .relu ∨ kind = .linear then .ok none
  else match kifsIn with
    | [t] => if p2 t.sum > maxTableSize then .ok none else (Lut.fromActivation limit hlsMax phi t out).map some
    | _ => .ok none

end HGQ
