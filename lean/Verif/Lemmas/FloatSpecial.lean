import Mathlib.Data.EReal.Inv
import Verif.Model.Loss

/-!
The arithmetic of special values in the loss (Model/Loss.lean) compared with Mathlib's extended reals: wherever the result is a number
it is the extended real one, and `nan` appears exactly for `nan` operands, `inf - inf` and `0 * inf`.
-/

namespace HGQ.EF

/-- the extended real number a float stands for; no value for `nan`, which is mapped to 0 and excluded in the statements -/
noncomputable def real : EF → EReal
  | .fin q => ((q : ℝ) : EReal)
  | .pinf => ⊤
  | .ninf => ⊥
  | .nan => 0

theorem infOf_real (a : ℚ) (h : a ≠ 0) : (infOf a).real = ((a : ℝ) : EReal) * ⊤ ∧ (infOf (-a)).real = ((a : ℝ) : EReal) * ⊥ := by
  rcases lt_or_gt_of_ne h with hn | hp
  · have hr : (a : ℝ) < 0 := by exact_mod_cast hn
    rw [EReal.coe_mul_top_of_neg hr, EReal.coe_mul_bot_of_neg hr]
    unfold infOf
    rw [if_neg h, if_neg (by linarith), if_neg (by simpa using h), if_pos (by linarith)]
    exact ⟨rfl, rfl⟩
  · have hr : (0 : ℝ) < a := by exact_mod_cast hp
    rw [EReal.coe_mul_top_of_pos hr, EReal.coe_mul_bot_of_pos hr]
    unfold infOf
    rw [if_neg h, if_pos hp, if_neg (by simpa using h), if_neg (by linarith)]
    exact ⟨rfl, rfl⟩

theorem infOf_nan (a : ℚ) : infOf a = .nan ↔ a = 0 := by
  unfold infOf; split_ifs <;> simp_all

/-- `+` -/
theorem add_spec (x y : EF) :
    (x.add y = .nan ↔ x = .nan ∨ y = .nan ∨ (x = .pinf ∧ y = .ninf) ∨ (x = .ninf ∧ y = .pinf)) ∧
    (x.add y ≠ .nan → (x.add y).real = x.real + y.real) := by
  cases x <;> cases y <;> simp [add, real]

/-- `*` -/
theorem mul_spec (x y : EF) :
    (x.mul y = .nan ↔ x = .nan ∨ y = .nan ∨ (x = .fin 0 ∧ (y = .pinf ∨ y = .ninf)) ∨ (y = .fin 0 ∧ (x = .pinf ∨ x = .ninf))) ∧
    (x.mul y ≠ .nan → (x.mul y).real = x.real * y.real) := by
  cases x <;> cases y <;> simp [mul, infOf_nan] <;> simp [real]
  · exact fun h => (infOf_real _ h).1
  · exact fun h => (infOf_real _ h).2
  · intro h; exact (infOf_real _ h).1.trans (mul_comm _ _)
  · intro h; exact (infOf_real _ h).2.trans (mul_comm _ _)

/-- `tf.maximum` -/
theorem max2_spec (x y : EF) :
    (x.max2 y = .nan ↔ x = .nan ∨ y = .nan) ∧ (x.max2 y ≠ .nan → (x.max2 y).real = max x.real y.real) := by
  cases x <;> cases y <;> simp [max2, real]
  exact EReal.coe_strictMono.monotone.map_max

/-- `tf.nn.relu` -/
theorem relu_spec (x : EF) : (x.relu = .nan ↔ x = .nan) ∧ (x ≠ .nan → x.relu.real = max x.real 0) := by
  cases x <;> simp [relu, real]
  exact EReal.coe_strictMono.monotone.map_max

/-- `tf.abs` -/
theorem abs_spec (x : EF) : (x.abs = .nan ↔ x = .nan) ∧ (x ≠ .nan → x.abs.real = max x.real (-x.real)) := by
  cases x <;> simp [EF.abs, real]
  exact EReal.coe_strictMono.monotone.map_max

/-- `x < 0` -/
theorem isNeg_spec (x : EF) : x.isNeg = true ↔ x ≠ .nan ∧ x.real < 0 := by
  cases x <;> simp [isNeg, real]

/-- `x / d` for a positive number -/
theorem divPos_spec (x : EF) (d : ℚ) (hd : 0 < d) :
    (x.divPos d = .nan ↔ x = .nan) ∧ (x ≠ .nan → (x.divPos d).real = x.real / ((d : ℝ) : EReal)) := by
  have hr : (0 : ℝ) < d := by exact_mod_cast hd
  have h0 : (0 : EReal) < ((d : ℝ) : EReal) := by exact_mod_cast hr
  cases x with
  | fin a => simp [divPos, real, EReal.coe_div]
  | pinf => simp [divPos, real, EReal.top_div_of_pos_ne_top h0 (EReal.coe_ne_top _)]
  | ninf => simp [divPos, real, EReal.bot_div_of_pos_ne_top h0 (EReal.coe_ne_top _)]
  | nan => simp [divPos]

end HGQ.EF
