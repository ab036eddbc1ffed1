import Verif.Model.Quantizer
import Mathlib.Analysis.SpecialFunctions.Log.Base

/-!
`HGQ.adapt_bw_bits`, `/repo/src/HGQ/quantizer/quantizer.py` lines 274-282. Real logarithms; the rounding error of float32 logarithms is
an explicit tolerance in the theorems.
-/

namespace HGQ

/-- `fbw - log|w| / log 2` for one weight, quantizer.py line 278; `log 0 = -inf` gives `+inf` -/
noncomputable def adaptBw (fbw : ℝ) (w : ℚ) : WithTop ℝ := if w = 0 then ⊤ else ((fbw - Real.logb 2 |(w : ℝ)| : ℝ) : WithTop ℝ)

/-- `tf.reduce_min(new_fbw, axis=skip_dims, keepdims=True)` at one element, quantizer.py lines 279-280: `ws` are the weights that
share the bitwidth -/
noncomputable def adaptShared (fbw : ℝ) (ws : List ℚ) : WithTop ℝ := (ws.map (adaptBw fbw)).foldr min ⊤

/-- `tf.clip_by_value(fbw, lo, hi)` at the start of the next call, quantizer.py lines 141-142; `+inf` becomes `hi` -/
noncomputable def clipFbw (lo hi : ℝ) : WithTop ℝ → ℝ
  | none => hi
  | some x => max lo (min x hi)

/-- `tf.round` on reals: to nearest, ties to even; used on the new bitwidth by `HGQ.forward`, quantizer.py line 153 -/
noncomputable def tfRoundR (x : ℝ) : ℤ :=
  let n := ⌊x⌋
  let r := x - n
  if r < 1 / 2 then n
  else if 1 / 2 < r then n + 1
  else if n % 2 = 0 then n else n + 1

end HGQ
