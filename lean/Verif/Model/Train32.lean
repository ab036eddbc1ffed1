import Verif.Model.Float32Ops

/-!
The quantizer in training, evaluated in float32.

Source: `/repo/src/HGQ/quantizer/quantizer.py` lines 9-10 and 145-179.
-/

namespace HGQ

/-- `log2 = tf.constant(np.log(2), dtype=tf.float32)`, quantizer.py line 10: the float32 number nearest to ln 2 -/
def ln2f : ℚ := 11629080 / 2 ^ 24

/-- `HGQ.forward` with `training=True` and `exact_q_value=True` for the deterministic strategies 0 and 3 in float32, quantizer.py lines
152-169, one element. Every operation is rounded separately (a compiler that fuses a multiplication with an addition rounds
less often). -/
def trainQ32 (strategy : ℤ) (fbw x : ℚ) : ℚ :=
  let scale := p2 (tfRound fbw)
  let s := fl32 (x * scale)
  let xq := fl32 ((if strategy = 3 then (flr s : ℚ) else flr (fl32 (s + 1 / 2))) / scale)
  let delta := fl32 (xq - x)
  let prod := fl32 (fl32 (delta * fbw) * ln2f)
  let delta := fl32 (fl32 (delta + prod) - prod)
  fl32 (x + delta)

end HGQ
