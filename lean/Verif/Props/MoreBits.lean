import Verif.Props.Quantizer
import Verif.Lemmas.Float32

/-!
C105: more bits never make quantization worse.
-/

namespace HGQ

open Spec

/-- a finer grid has a value at least as close, for rounding down and for rounding half up -/
theorem evalQ_error_mono (st : ℤ) {f f' : ℚ} (h : f ≤ f') (x : ℚ) : |evalQ st f' x - x| ≤ |evalQ st f x - x| := by
  have hm := tfRound_mono h
  rw [evalQ_eq, evalQ_eq]
  generalize tfRound f = a at *
  generalize tfRound f' = b at *
  obtain ⟨d, hd, hd0⟩ := p2_int_of_nonneg (a := b - a) (by omega)
  have hpa := p2_pos (-a)
  have hpb := p2_pos (-b)
  have hb : 0 < p2 b := p2_pos b
  have eab : p2 (-a) = d * p2 (-b) := by rw [← hd, ← p2_add]; congr 1; ring
  have ex : x = x * p2 b * p2 (-b) := by rw [mul_assoc, p2_mul_neg, mul_one]
  have key : ∀ n m : ℤ, |(m : ℚ) - x * p2 b| ≤ |(n : ℚ) * d - x * p2 b| → |(m : ℚ) * p2 (-b) - x| ≤ |(n : ℚ) * p2 (-a) - x| := by
    intro n m h
    have e1 : (m : ℚ) * p2 (-b) - x = (m - x * p2 b) * p2 (-b) := by rw [sub_mul, ← ex]
    have e2 : (n : ℚ) * p2 (-a) - x = (n * d - x * p2 b) * p2 (-b) := by rw [sub_mul, ← ex, eab]; ring
    rw [e1, e2, abs_mul, abs_mul]
    exact mul_le_mul_of_nonneg_right h (abs_nonneg _)
  split_ifs
  · apply key
    have h1 := flr_le (x * p2 a)
    have h2 : (flr (x * p2 a) : ℚ) * d ≤ x * p2 b := by
      have := mul_le_mul_of_nonneg_right h1 (by exact_mod_cast hd0.le : (0 : ℚ) ≤ d)
      rw [mul_assoc x, ← hd, ← p2_add] at this
      rw [← hd]
      rwa [show a + (b - a) = b by ring] at this
    have h3 : flr (x * p2 a) * d ≤ flr (x * p2 b) := le_flr.mpr (by push_cast; exact h2)
    have h3' : (flr (x * p2 a) : ℚ) * d ≤ flr (x * p2 b) := by exact_mod_cast h3
    have h4 := flr_le (x * p2 b)
    rw [abs_of_nonpos (by linarith), abs_of_nonpos (by linarith)]
    linarith
  · apply key
    have hn : IsNearest (x * p2 b) (flr (x * p2 b + 1 / 2)) := by
      refine isNearest_of_abs_le_half ?_
      have h1 := flr_le (x * p2 b + 1 / 2)
      have h2 := lt_flr_add_one (x * p2 b + 1 / 2)
      rw [abs_le]; constructor <;> linarith
    have := hn (flr (x * p2 a + 1 / 2) * d)
    push_cast at this
    rwa [abs_sub_comm, abs_sub_comm (x * p2 b)] at this

/-- **C105**, HGQ quantizers: at inference a larger bitwidth never increases the error, for every strategy. -/
theorem C105_more_bits (c : QConf) (fbw fbw' x noise noise' y y' : ℚ) (h : fbw ≤ fbw') (hy : c.forward fbw x noise false = .ok y)
    (hy' : c.forward fbw' x noise' false = .ok y') : |y' - x| ≤ |y - x| := by
  rw [C11_inference_total] at hy hy'
  cases hy; cases hy'
  exact evalQ_error_mono _ h x

/-- **C105**: with enough bits the error is below any given bound. -/
theorem C105_any_accuracy (c : QConf) (ε : ℚ) (hε : 0 < ε) : ∃ b : ℚ, ∀ fbw x noise y, b ≤ fbw → c.forward fbw x noise false = .ok y →
    |y - x| < ε := by
  obtain ⟨n, hn⟩ : ∃ n : ℕ, 1 / ε < n := by
    have h0 : 0 ≤ flr (1 / ε) := le_flr.mpr (by push_cast; positivity)
    obtain ⟨m, hm⟩ := Int.eq_ofNat_of_zero_le h0
    refine ⟨m + 1, ?_⟩
    have := lt_flr_add_one (1 / ε)
    rw [hm] at this
    push_cast at this ⊢
    exact this
  refine ⟨n, fun fbw x noise y hb hy => ?_⟩
  rw [C11_inference_total] at hy
  cases hy
  refine lt_of_le_of_lt (evalQ_error_mono _ hb x) ?_
  rw [evalQ_eq, show tfRound ((n : ℕ) : ℚ) = (n : ℤ) by exact_mod_cast tfRound_int (n : ℤ)]
  have hp : 0 < p2 (-(n : ℤ)) := p2_pos _
  have hlt : p2 (-(n : ℤ)) < ε := by
    have h1 : (n : ℚ) < p2 (n : ℤ) := by
      rw [p2_natCast]; push_cast; exact_mod_cast Nat.lt_two_pow_self
    have h2 : 1 < p2 (n : ℤ) * ε := by
      have := (div_lt_iff₀ hε).mp (hn.trans h1)
      linarith
    have h3 := mul_lt_mul_of_pos_left h2 hp
    rw [← mul_assoc, p2_neg_mul, mul_one, one_mul] at h3
    exact h3
  refine lt_of_le_of_lt ?_ hlt
  have ex : x = x * p2 (n : ℤ) * p2 (-(n : ℤ)) := by rw [mul_assoc, p2_mul_neg, mul_one]
  have key : ∀ m : ℤ, |(m : ℚ) - x * p2 (n : ℤ)| ≤ 1 → |(m : ℚ) * p2 (-(n : ℤ)) - x| ≤ p2 (-(n : ℤ)) := by
    intro m hm
    have e1 : (m : ℚ) * p2 (-(n : ℤ)) - x = (m - x * p2 (n : ℤ)) * p2 (-(n : ℤ)) := by rw [sub_mul, ← ex]
    rw [e1, abs_mul, abs_of_pos hp]
    exact mul_le_of_le_one_left hp.le hm
  split_ifs
  · apply key
    have h1 := flr_le (x * p2 (n : ℤ))
    have h2 := lt_flr_add_one (x * p2 (n : ℤ))
    rw [abs_le]; constructor <;> linarith
  · apply key
    have h1 := flr_le (x * p2 (n : ℤ) + 1 / 2)
    have h2 := lt_flr_add_one (x * p2 (n : ℤ) + 1 / 2)
    rw [abs_le]; constructor <;> linarith

/-- **C105**: the quantizer keeps the order of its inputs. -/
theorem C105_monotone (c : QConf) (fbw x x' noise noise' y y' : ℚ) (h : x ≤ x') (hy : c.forward fbw x noise false = .ok y)
    (hy' : c.forward fbw x' noise' false = .ok y') : y ≤ y' := by
  rw [C11_inference_total] at hy hy'
  cases hy; cases hy'
  rw [evalQ_eq, evalQ_eq]
  refine mul_le_mul_of_nonneg_right ?_ (p2_pos _).le
  have h1 := mul_le_mul_of_nonneg_right h (p2_pos (tfRound fbw)).le
  split_ifs
  · exact_mod_cast flr_mono h1
  · exact_mod_cast flr_mono (by linarith)

/-- **C105**, fixed-point layers: with a rounding-to-nearest mode and `SAT` the output is a value of the type nearest to the input itself. -/
theorem C105_sat_is_nearest (x : ℚ) (s : Bool) (w : ℕ) (hw : 1 ≤ w) (i : ℤ) (R : Rnd) (hR : R ≠ .TRN ∧ R ≠ .TRN_ZERO) (y : ℚ)
    (hy : IsApFixed s w i y) : |x - gfixedQuantizer x s.toInt w i R .SAT| ≤ |x - y| := by
  rw [isApFixed_iff hw] at hy
  obtain ⟨m, rfl, h1, h2⟩ := hy
  rw [gfixed_pos_bits x _ i R _ (by omega : (w : ℤ) ≠ 0)]
  obtain ⟨n, hn, hnear, -⟩ := C07_nearest R hR (x * p2 (w - i))
  rw [hn]
  change |x - satSAT n s.toInt w * p2 (i - w)| ≤ _
  rw [satSAT_int s hw]
  have hp := p2_pos (i - w)
  have ex : x = x * p2 (w - i) * p2 (i - w) := by
    rw [mul_assoc, ← p2_add, show (w : ℤ) - i + (i - w) = 0 by ring, p2_zero, mul_one]
  have key : ∀ k : ℤ, |x * p2 (w - i) - k| ≤ |x * p2 (w - i) - m| → |x - (k : ℚ) * p2 (i - w)| ≤ |x - m * p2 (i - w)| := by
    intro k hk
    have e1 : x - (k : ℚ) * p2 (i - w) = (x * p2 (w - i) - k) * p2 (i - w) := by rw [sub_mul, ← ex]
    have e2 : x - (m : ℚ) * p2 (i - w) = (x * p2 (w - i) - m) * p2 (i - w) := by rw [sub_mul, ← ex]
    rw [e1, e2, abs_mul, abs_mul]
    exact mul_le_mul_of_nonneg_right hk (abs_nonneg _)
  apply key
  set z := x * p2 (w - i)
  have hlh : lowB s w ≤ highB s w := (lowB_nonpos s w).trans (highB_nonneg s w)
  rcases le_or_gt n (highB s w) with hh | hh
  · rcases le_or_gt (lowB s w) n with hl | hl
    · rw [max_eq_left hl, min_eq_left hh]; exact hnear m
    · rw [max_eq_right hl.le, min_eq_left hlh]
      have h3 := hnear (lowB s w)
      have hl' : (n : ℚ) < lowB s w := by exact_mod_cast hl
      have h1' : (lowB s w : ℚ) ≤ m := by exact_mod_cast h1
      have hz : z ≤ lowB s w := by
        by_contra hc
        push Not at hc
        rw [abs_of_pos (by linarith), abs_of_pos (by linarith)] at h3
        linarith
      rw [abs_of_nonpos (by linarith), abs_of_nonpos (by linarith)]
      linarith
  · rw [max_eq_left (hlh.trans hh.le), min_eq_right hh.le]
    have h3 := hnear (highB s w)
    have hl' : (highB s w : ℚ) < n := by exact_mod_cast hh
    have h2' : (m : ℚ) ≤ highB s w := by exact_mod_cast h2
    have hz : (highB s w : ℚ) ≤ z := by
      by_contra hc
      push Not at hc
      rw [abs_of_neg (by linarith), abs_of_neg (by linarith)] at h3
      linarith
    rw [abs_of_nonneg (by linarith), abs_of_nonneg (by linarith)]
    linarith

/-- **C105**: so a type that contains another one never has the larger error. -/
theorem C105_wider_type (x : ℚ) (s s' : Bool) (w w' : ℕ) (hw' : 1 ≤ w') (i i' : ℤ) (R R' : Rnd) (hR : R' ≠ .TRN ∧ R' ≠ .TRN_ZERO)
    (hsub : ∀ y, IsApFixed s w i y → IsApFixed s' w' i' y) :
    |x - gfixedQuantizer x s'.toInt w' i' R' .SAT| ≤ |x - gfixedQuantizer x s.toInt w i R .SAT| :=
  C105_sat_is_nearest x s' w' hw' i' R' hR _ (hsub _ (C01_output_in_type x s w i R .SAT))

/-- With truncation a wider type can be worse: `-1/4` is 0 in an unsigned type and -1 after adding a sign bit. -/
theorem C105_truncation_worse : (∀ y, IsApFixed false 3 3 y → IsApFixed true 4 4 y) ∧ gfixedQuantizer (-1 / 4) 0 3 3 .TRN .SAT = 0 ∧
    gfixedQuantizer (-1 / 4) 1 4 4 .TRN .SAT = -1 := by
  refine ⟨?_, by decide +kernel, by decide +kernel⟩
  intro y hy
  rw [isApFixed_iff (by norm_num)] at hy ⊢
  obtain ⟨n, rfl, h1, h2⟩ := hy
  refine ⟨n, by norm_num, ?_, ?_⟩
  · have : lowB false 3 = 0 := rfl
    have : lowB true 4 = -8 := by decide
    omega
  · have : highB false 3 = 7 := by decide
    have : highB true 4 = 7 := by decide
    omega

-- 1/3 with 1 and with 3 fractional bits
example : evalQ 0 1 (1 / 3) = 1 / 2 ∧ evalQ 0 3 (1 / 3) = 3 / 8 ∧ evalQ 3 1 (1 / 3) = 0 ∧ evalQ 3 3 (1 / 3) = 1 / 4 := by decide +kernel
example : |evalQ 0 3 (1 / 3) - 1 / 3| ≤ |evalQ 0 1 (1 / 3) - 1 / 3| := evalQ_error_mono 0 (by norm_num) _
example : gfixedQuantizer (9 / 2) 1 4 3 .RND .SAT = 7 / 2 ∧ gfixedQuantizer (9 / 2) 1 6 4 .RND .SAT = 9 / 2 := by decide +kernel

end HGQ
