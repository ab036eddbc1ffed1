import Verif.Model.Train32
import Verif.Lemmas.Float32Ops
import Verif.Lemmas.Bits

/-!
Error analysis of the quantizer in training.
-/

namespace HGQ
open Spec

theorem fl32_abs_le {y z : ℚ} (hz : IsFloat32 z) (h : |y| ≤ z) : |fl32 y| ≤ z := by
  obtain ⟨h1, h2⟩ := abs_le.mp h
  rw [abs_le]
  exact ⟨le_fl32_of_le hz.neg h1, fl32_le_of_le hz h2⟩

theorem isFloat32_p2mul (n : ℤ) (hn : |n| ≤ 2 ^ 24) (f : ℤ) : IsFloat32 (n * p2 f) := (isFloat32_int n hn).mul_p2 f

theorem p2_shift (f : ℤ) (k : ℕ) : p2 (f + k) = 2 ^ k * p2 f := by
  rw [p2_add, p2_natCast]; push_cast; ring

theorem p2_shift_neg (f : ℤ) (k : ℕ) : p2 (f - k) = p2 f / 2 ^ k := by
  have := p2_shift (f - k) k
  rw [sub_add_cancel] at this
  rw [this]; field_simp

/-- the disturbance of the straight-through difference by the bitwidth gradient -/
theorem train_delta {x fbw : ℚ} {n f : ℤ} (hd : |n * p2 (-f) - x| ≤ p2 (-f)) (hf : |fbw| ≤ 23) :
    let d := fl32 (n * p2 (-f) - x)
    let p := fl32 (fl32 (d * fbw) * ln2f)
    |fl32 (fl32 (d + p) - p) - (n * p2 (-f) - x)| ≤ p2 (-f - 19) := by
  intro d p
  have hU := p2_pos (-f)
  have e19 : p2 (-f - 19) = p2 (-f) / 2 ^ 19 := by exact_mod_cast p2_shift_neg (-f) 19
  have e20 : p2 (-f + 5 - 25) = p2 (-f) / 2 ^ 20 := by
    rw [show -f + 5 - 25 = -f - (20 : ℕ) by push_cast; ring]; exact p2_shift_neg (-f) 20
  have e24 : p2 (-f + 1 - 25) = p2 (-f) / 2 ^ 24 := by
    rw [show -f + 1 - 25 = -f - (24 : ℕ) by push_cast; ring]; exact p2_shift_neg (-f) 24
  have e25 : p2 (-f - 25) = p2 (-f) / 2 ^ 25 := by exact_mod_cast p2_shift_neg (-f) 25
  have e5 : p2 (-f + 5) = 2 ^ 5 * p2 (-f) := by exact_mod_cast p2_shift (-f) 5
  have e1 : p2 (-f + 1) = 2 ^ 1 * p2 (-f) := by exact_mod_cast p2_shift (-f) 1
  have f1 : IsFloat32 (p2 (-f)) := by simpa using isFloat32_p2mul 1 (by norm_num) (-f)
  have f23 : IsFloat32 (23 * p2 (-f)) := by exact_mod_cast isFloat32_p2mul 23 (by norm_num) (-f)
  have f16 : IsFloat32 (16 * p2 (-f)) := by exact_mod_cast isFloat32_p2mul 16 (by norm_num) (-f)
  have hd1 : |d| ≤ p2 (-f) := fl32_abs_le f1 hd
  have hd2 : |d - (n * p2 (-f) - x)| ≤ p2 (-f) / 2 ^ 25 := by
    rcases lt_or_eq_of_le hd with h | h
    · rw [← e25]; exact fl32_error h
    · have : IsFloat32 (n * p2 (-f) - x) := by
        rcases abs_eq (p2_pos _).le |>.mp h with h | h
        · rw [h]; exact f1
        · rw [h]; exact f1.neg
      show |fl32 _ - _| ≤ _
      rw [this.fl, sub_self, abs_zero]
      positivity
  have ha : |fl32 (d * fbw)| ≤ 23 * p2 (-f) := by
    apply fl32_abs_le f23
    rw [abs_mul, mul_comm]
    exact mul_le_mul hf hd1 (abs_nonneg _) (by norm_num)
  have hp : |p| ≤ 16 * p2 (-f) := by
    apply fl32_abs_le f16
    rw [abs_mul]
    have hl : |ln2f| = 11629080 / 2 ^ 24 := by unfold ln2f; norm_num
    rw [hl]
    have := mul_le_mul_of_nonneg_right ha (show (0 : ℚ) ≤ 11629080 / 2 ^ 24 by norm_num)
    nlinarith
  have hs : |fl32 (d + p) - (d + p)| ≤ p2 (-f) / 2 ^ 20 := by
    rw [← e20]
    apply fl32_error
    rw [e5]
    have := abs_add_le d p
    linarith
  generalize hS : fl32 (d + p) = S at hs ⊢
  have ht : |fl32 (S - p) - (S - p)| ≤ p2 (-f) / 2 ^ 24 := by
    rw [← e24]
    apply fl32_error
    rw [e1]
    have h1 : S - p = (S - (d + p)) + d := by ring
    have := abs_add_le (S - (d + p)) d
    rw [h1]
    linarith
  have h2 : fl32 (S - p) - (n * p2 (-f) - x) =
      (fl32 (S - p) - (S - p)) + ((S - (d + p)) + (d - (n * p2 (-f) - x))) := by ring
  rw [h2, e19]
  have h3 := abs_add_le (fl32 (S - p) - (S - p)) ((S - (d + p)) + (d - (n * p2 (-f) - x)))
  have h4 := abs_add_le (S - (d + p)) (d - (n * p2 (-f) - x))
  linarith

/-- integer reached by the quantizer in float32, and the distance to it -/
theorem round32_dist {s : ℚ} (hs : IsFloat32 s) (hb : |s| < 2 ^ 23) (strategy : ℤ) :
    |(if strategy = 3 then flr s else flr (fl32 (s + 1 / 2)))| < 2 ^ 24 ∧
      |(((if strategy = 3 then flr s else flr (fl32 (s + 1 / 2)) : ℤ)) : ℚ) - s| ≤ 1 := by
  obtain ⟨hb1, hb2⟩ := abs_lt.mp hb
  split_ifs with h3
  · have h1 : flr s < 2 ^ 23 := flr_lt.mpr (by push_cast; linarith)
    have h2 : -2 ^ 23 ≤ flr s := le_flr.mpr (by push_cast; linarith)
    have h4 := flr_le s
    have h5 := lt_flr_add_one s
    refine ⟨by rw [abs_lt]; constructor <;> omega, by rw [abs_le]; constructor <;> linarith⟩
  · by_cases hbad : s = badHalf
    · have hval : badHalf = 1 / 2 - 1 / 2 ^ 25 := by unfold badHalf p2; norm_num
      have h1 : fl32 (badHalf + 1 / 2) = 1 := by rw [hval]; decide +kernel
      have h2 : flr (1 : ℚ) = 1 := by norm_num [flr]
      rw [hbad, h1, h2, hval]
      refine ⟨by norm_num, by rw [abs_le]; constructor <;> norm_num⟩
    · rw [(halfUp32 hs hb).mpr hbad]
      have h1 : flr (s + 1 / 2) < 2 ^ 23 + 1 := flr_lt.mpr (by push_cast; linarith)
      have h2 : -2 ^ 23 ≤ flr (s + 1 / 2) := le_flr.mpr (by push_cast; linarith)
      have h4 := flr_le (s + 1 / 2)
      have h5 := lt_flr_add_one (s + 1 / 2)
      refine ⟨by rw [abs_lt]; constructor <;> omega, by rw [abs_le]; constructor <;> linarith⟩

/-- inference and training in float32 around the same multiple of the resolution -/
theorem train_eval {strategy : ℤ} {fbw x : ℚ} (hx : IsFloat32 x) (hb : |x * p2 (tfRound fbw)| < 2 ^ 23) (hf : |fbw| ≤ 23) :
    ∃ n : ℤ, |n| < 2 ^ 24 ∧ evalQF fl32 strategy fbw x = n * p2 (-tfRound fbw) ∧
      ∃ t, |t| ≤ p2 (-tfRound fbw - 19) ∧ trainQ32 strategy fbw x = fl32 (n * p2 (-tfRound fbw) + t) := by
  unfold evalQF trainQ32
  dsimp only
  generalize hF : tfRound fbw = f at *
  have hs := hx.mul_p2 f
  rw [hs.fl, div_p2]
  obtain ⟨hn, hd⟩ := round32_dist hs hb strategy
  have hcast : (if strategy = 3 then ((flr (x * p2 f) : ℤ) : ℚ) else ((flr (fl32 (x * p2 f + 1 / 2)) : ℤ) : ℚ)) =
      ((if strategy = 3 then flr (x * p2 f) else flr (fl32 (x * p2 f + 1 / 2)) : ℤ) : ℚ) := by split_ifs <;> rfl
  rw [hcast]
  generalize (if strategy = 3 then flr (x * p2 f) else flr (fl32 (x * p2 f + 1 / 2))) = n at *
  have hq : IsFloat32 ((n : ℚ) * p2 (-f)) := isFloat32_p2mul n hn.le _
  rw [hq.fl]
  have hU := p2_pos (-f)
  have hd' : |n * p2 (-f) - x| ≤ p2 (-f) := by
    have h1 : n * p2 (-f) - x = (n - x * p2 f) * p2 (-f) := by
      rw [sub_mul, mul_assoc x, p2_mul_neg, mul_one]
    rw [h1, abs_mul, abs_of_pos hU]
    calc _ ≤ 1 * p2 (-f) := mul_le_mul_of_nonneg_right hd hU.le
      _ = _ := one_mul _
  refine ⟨n, hn, straightThrough hx hn hd', _, train_delta (n := n) (f := f) hd' hf, ?_⟩
  congr 1
  ring

end HGQ
