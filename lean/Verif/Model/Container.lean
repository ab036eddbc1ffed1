import Verif.Model.Quantizer

/-!
Model of `get_arr_container` and `activation_kif_forward` in `/repo/src/HGQ/proxy/precision_derivation.py`.
Arrays are flat lists of rationals; `arr * 2**f` is exact, and `astype(np.int64)` is truncation without
64-bit overflow (entries are below `2^31` in magnitude in every use; not modelled).
-/

namespace HGQ

/-- `_arr.astype(np.int64)`: truncation towards zero. proxy/precision_derivation.py line 32. -/
def truncZero (x : ℚ) : ℤ := if 0 ≤ x then ⌊x⌋ else ⌈x⌉

/-- `np.all(_arr.astype(np.int64) == _arr)` with `_arr = arr * 2**f`, precision_derivation.py lines 30-31. -/
def allInt (arr : List ℚ) (f : ℤ) : Bool := arr.all fun a => decide ((truncZero (a * p2 f) : ℚ) = a * p2 f)

/-- the bisection loop, precision_derivation.py lines 26-34; the fuel replaces `while True`
(`contLoop_fuel` shows 64 steps always suffice for the initial interval). -/
def contLoop (arr : List ℚ) : ℕ → ℤ → ℤ → ℤ
  | 0, _, hf => hf
  | n + 1, lf, hf =>
    if hf - lf ≤ 1 then hf
    else
      let f := (lf + hf) / 2
      if allInt arr f then contLoop arr n lf f else contLoop arr n f hf

/-- maximum with `-inf` for the empty array. proxy/precision_derivation.py lines 40-45. -/
def maxBot (l : List (WithBot ℤ)) : WithBot ℤ := l.foldr max ⊥

/-- `get_arr_container`, precision_derivation.py lines 20-48. -/
def arrContainer (arr : List ℚ) : KIF :=
  if arr.all (fun a => decide (a = 0)) then ⟨0, 1, 0⟩
  else
    let f := contLoop arr 64 (-32) 32
    let i1 := maxBot ((arr.filter fun a => decide (¬ a < 0)).map fun a => (floorLog2 (a * p2 f)).map (· + 1))
    let i2 := maxBot ((arr.filter fun a => decide (a < 0)).map fun a => ceilLog2 (-a * p2 f))
    let i := (max i1 i2).unbotD 0
    ⟨if arr.any (fun a => decide (a < 0)) then 1 else 0, i - f, f⟩

/-- `np.linspace(start, stop, N)` for `N ≥ 2`.
proxy/precision_derivation.py line 59, proxy/unary_lut.py lines 70 and 73. -/
def linspace (start stop : ℚ) (N : ℕ) : List ℚ :=
  (List.range N).map fun (j : ℕ) => start + (j : ℚ) * ((stop - start) / (N - 1))

/-- `activation_kif_forward`, precision_derivation.py lines 51-62. `func` is any real function; its float32
output is taken exact. -/
def activationKifForward (func : ℚ → ℚ) (k i f : ℤ) : KIF :=
  let (k, i, f) := if k + i + f ≤ 0 then (0, 1, 0) else (k, i, f)
  let N := min (2 ^ (k + i + f).toNat) (2 ^ 20)
  arrContainer ((linspace (-p2 i * k) (p2 i - p2 (-f)) N).map func)

end HGQ
