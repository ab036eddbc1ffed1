import Verif.Model.Bops

/-!
Model of the callback `CalibratedBOPs`, `/repo/src/HGQ/bops/bops.py` lines 42-54.
-/

namespace HGQ

/-- calibration data: an array, or a list with one array for every input of the model. `rows`: the samples, each with one
entry for every input.
`calibration_data`, bops/bops.py lines 43-45; the two forms are told apart at lines 65 and 69. -/
structure CalData where
  isList : Bool
  nInputs : ℕ
  rows : List (List (List ℚ))

/-- Python's `len(data)`: for a list of arrays the number of arrays. bops/bops.py line 52. -/
def CalData.len (d : CalData) : ℕ := if d.isList then d.nInputs else d.rows.length

/-- `bsz = self.bsz or len(data)`, bops.py line 52: `None` and 0 both select `len(data)`. -/
def CalData.batch (d : CalData) : Option ℕ → ℕ
  | none => d.len
  | some b => if b = 0 then d.len else b

/-- `CalibratedBOPs.on_epoch_end`, bops.py lines 47-54: the states of the layers afterwards and the value of `logs['bops']`. -/
def Net.calibratedBops (net : Net) (ts : List LTree) (outs : List ℕ) (bopsOf : ℕ → List LState → Except String ℚ)
    (d : CalData) (bsz : Option ℕ) (ss : List LState) : Except String (List LState × TraceRes) :=
  net.traceMinmax ts outs bopsOf { bsz := d.batch bsz } ss d.rows

end HGQ
