import Verif.Model.Adapt
import Verif.Lemmas.Quantizer
import Mathlib.Data.Nat.Size
import Mathlib.Analysis.SpecialFunctions.Pow.Real

/-!
C59: `adapt_bw_bits` gives every weight about the same number of bits.

`evalQ strategy r w` is the quantized weight when the rounded bitwidth is `r`; the number of magnitude bits of a multiple `m` of
2^-r is the number `Nat.size |m|` of binary digits of `m`.
-/

namespace HGQ

theorem tfRoundR_bounds (x : ℝ) : |x - tfRoundR x| ≤ 1 / 2 := by
  unfold tfRoundR
  have h1 := Int.floor_le x
  have h2 := Int.lt_floor_add_one x
  dsimp only
  rw [abs_le]
  split_ifs <;> push_cast <;> constructor <;> linarith

/-- a weight on its own scale is about 2^n units -/
theorem adapt_scaled {w : ℚ} (hw : w ≠ 0) {n r : ℤ} {c : ℝ} (h : |(r : ℝ) - (n - Real.logb 2 |(w : ℝ)|)| ≤ c) :
    (2 : ℝ) ^ (-c) * (2 : ℝ) ^ n ≤ ((|w * p2 r| : ℚ) : ℝ) ∧ ((|w * p2 r| : ℚ) : ℝ) ≤ (2 : ℝ) ^ c * (2 : ℝ) ^ n := by
  have hwp : (0 : ℝ) < |(w : ℝ)| := abs_pos.mpr (by exact_mod_cast hw)
  have h2 : (0 : ℝ) < 2 := by norm_num
  have he : ((|w * p2 r| : ℚ) : ℝ) = (2 : ℝ) ^ (Real.logb 2 |(w : ℝ)| + r) := by
    rw [Real.rpow_add h2, Real.rpow_logb h2 (by norm_num) hwp, abs_mul, abs_of_pos (p2_pos r)]
    unfold p2
    push_cast
    rw [Real.rpow_intCast]
  rw [he]
  have h' := abs_le.mp h
  rw [← Real.rpow_intCast 2 n, ← Real.rpow_add h2, ← Real.rpow_add h2]
  constructor
  · exact Real.rpow_le_rpow_of_exponent_le (by norm_num) (by linarith)
  · exact Real.rpow_le_rpow_of_exponent_le (by norm_num) (by linarith)

theorem two_rpow_three_quarters : (2 : ℝ) ^ (3 / 4 : ℝ) < 17 / 10 := by
  have h : ((2 : ℝ) ^ (3 / 4 : ℝ)) ^ (4 : ℕ) = 8 := by
    rw [← Real.rpow_natCast, ← Real.rpow_mul (by norm_num)]
    norm_num
  by_contra hc
  push Not at hc
  have := pow_le_pow_left₀ (by norm_num) hc 4
  rw [h] at this
  norm_num at this

theorem two_rpow_half : (2 : ℝ) ^ (1 / 2 : ℝ) < 3 / 2 := by
  have h : ((2 : ℝ) ^ (1 / 2 : ℝ)) ^ (2 : ℕ) = 2 := by
    rw [← Real.rpow_natCast, ← Real.rpow_mul (by norm_num)]
    norm_num
  by_contra hc
  push Not at hc
  have := pow_le_pow_left₀ (by norm_num) hc 2
  rw [h] at this
  norm_num at this

theorem half_le_two_rpow {c : ℝ} (hc : c ≤ 1) : 1 / 2 ≤ (2 : ℝ) ^ (-c) := by
  have : (2 : ℝ) ^ (-1 : ℝ) ≤ (2 : ℝ) ^ (-c) := Real.rpow_le_rpow_of_exponent_le (by norm_num) (by linarith)
  rw [Real.rpow_neg_one] at this
  linarith

theorem natAbs_cast (m : ℤ) : ((m.natAbs : ℕ) : ℚ) = |(m : ℚ)| := by
  rw [Nat.cast_natAbs, Int.cast_abs]

/-- the quantized weight in units -/
theorem evalQ_units (st : ℤ) (r : ℤ) (w : ℚ) :
    evalQ st r w = ((if st = 3 then flr (w * p2 r) else flr (w * p2 r + 1 / 2) : ℤ) : ℚ) * p2 (-r) := by
  rw [evalQ_eq, tfRound_int]
  split_ifs <;> rfl

theorem round_dist (s : ℚ) : |(flr (s + 1 / 2) : ℚ) - s| ≤ 1 / 2 := by
  have h1 := flr_le (s + 1 / 2)
  have h2 := lt_flr_add_one (s + 1 / 2)
  rw [abs_le]; constructor <;> linarith

/-- rounding to nearest, before the clip -/
theorem adapt_bits (st : ℤ) (hst : st ≠ 3) (n : ℕ) (hn : 1 ≤ n) (w : ℚ) (hw : w ≠ 0) (new : ℝ) (hnew : adaptBw n w = new)
    (fbw : ℝ) (herr : |fbw - new| ≤ 1 / 4) :
    ∃ m : ℤ, evalQ st (tfRoundR fbw) w = m * (2 : ℚ) ^ (-tfRoundR fbw) ∧ n ≤ Nat.size m.natAbs ∧ Nat.size m.natAbs ≤ n + 1 := by
  unfold adaptBw at hnew
  rw [if_neg hw] at hnew
  replace hnew := WithTop.coe_injective hnew
  set r := tfRoundR fbw
  have hr : |(r : ℝ) - (((n : ℤ) : ℝ) - Real.logb 2 |(w : ℝ)|)| ≤ 3 / 4 := by
    have h1 := abs_le.mp (tfRoundR_bounds fbw)
    have h2 := abs_le.mp herr
    rw [← hnew] at h2
    rw [abs_le]
    push_cast
    constructor <;> linarith
  obtain ⟨hl, hu⟩ := adapt_scaled hw hr
  refine ⟨_, evalQ_units st r w, ?_⟩
  rw [if_neg hst]
  set s := w * p2 r
  have hd := round_dist s
  set m := flr (s + 1 / 2)
  have hda : |(|(m : ℚ)| - |s|)| ≤ 1 / 2 := le_trans (abs_abs_sub_abs_le_abs_sub _ _) hd
  rw [← natAbs_cast] at hda
  have hda' := abs_le.mp hda
  have hdr1 : ((m.natAbs : ℕ) : ℝ) ≤ ((|s| : ℚ) : ℝ) + 1 / 2 := by
    have : ((m.natAbs : ℕ) : ℚ) ≤ |s| + 1 / 2 := by linarith
    have := (Rat.cast_le (K := ℝ)).mpr this
    push_cast at this ⊢
    exact this
  have hdr2 : ((|s| : ℚ) : ℝ) - 1 / 2 ≤ ((m.natAbs : ℕ) : ℝ) := by
    have : |s| - 1 / 2 ≤ ((m.natAbs : ℕ) : ℚ) := by linarith
    have := (Rat.cast_le (K := ℝ)).mpr this
    push_cast at this ⊢
    exact this
  obtain ⟨p, rfl⟩ : ∃ p, n = p + 1 := ⟨n - 1, by omega⟩
  have hpp : (2 : ℝ) ^ ((p + 1 : ℕ) : ℤ) = 2 * 2 ^ p := by rw [zpow_natCast, pow_succ]; ring
  rw [hpp] at hl hu
  have hp1 : (1 : ℝ) ≤ 2 ^ p := one_le_pow₀ (by norm_num)
  constructor
  · rw [show p + 1 = p.succ by rfl, Nat.succ_le_iff, Nat.lt_size]
    have h1 := half_le_two_rpow (c := 3 / 4) (by norm_num)
    have h2 : (2 : ℝ) ^ p - 1 < ((m.natAbs : ℕ) : ℝ) := by nlinarith
    have h3 : (2 : ℝ) ^ p < ((m.natAbs + 1 : ℕ) : ℝ) := by push_cast; linarith
    have h4 : 2 ^ p < m.natAbs + 1 := by exact_mod_cast h3
    omega
  · rw [Nat.size_le]
    have h1 := two_rpow_three_quarters
    have h2 : ((m.natAbs : ℕ) : ℝ) < 2 ^ (p + 1 + 1) := by
      rw [pow_succ, pow_succ]
      nlinarith
    exact_mod_cast h2

/-- strategy 'floor', before the clip -/
theorem adapt_bits_floor (n : ℕ) (hn : 1 ≤ n) (w : ℚ) (hw : w ≠ 0) (fbw : ℝ) (hnew : adaptBw n w = fbw) :
    ∃ m : ℤ, evalQ 3 (tfRoundR fbw) w = m * (2 : ℚ) ^ (-tfRoundR fbw) ∧ n ≤ Nat.size m.natAbs ∧ Nat.size m.natAbs ≤ n + 1 := by
  unfold adaptBw at hnew
  rw [if_neg hw] at hnew
  replace hnew := WithTop.coe_injective hnew
  set r := tfRoundR fbw
  have hr : |(r : ℝ) - (((n : ℤ) : ℝ) - Real.logb 2 |(w : ℝ)|)| ≤ 1 / 2 := by
    have h1 := abs_le.mp (tfRoundR_bounds fbw)
    rw [abs_le]
    push_cast
    constructor <;> linarith
  obtain ⟨hl, hu⟩ := adapt_scaled hw hr
  refine ⟨_, evalQ_units 3 r w, ?_⟩
  rw [if_pos rfl]
  set s := w * p2 r with hs
  have hs0 : s ≠ 0 := mul_ne_zero hw (p2_ne r)
  obtain ⟨p, rfl⟩ : ∃ p, n = p + 1 := ⟨n - 1, by omega⟩
  have hpp : (2 : ℝ) ^ ((p + 1 : ℕ) : ℤ) = 2 * 2 ^ p := by rw [zpow_natCast, pow_succ]; ring
  rw [hpp] at hl hu
  have hp1 : (1 : ℝ) ≤ 2 ^ p := one_le_pow₀ (by norm_num)
  have h1 := half_le_two_rpow (c := 1 / 2) (by norm_num)
  have h2 := two_rpow_half
  -- bounds in ℚ
  have hl' : (2 : ℚ) ^ p ≤ |s| := by
    have : ((2 ^ p : ℚ) : ℝ) ≤ ((|s| : ℚ) : ℝ) := by push_cast at hl ⊢; nlinarith
    exact_mod_cast this
  have hu' : |s| < 3 * 2 ^ p := by
    have : ((|s| : ℚ) : ℝ) < ((3 * 2 ^ p : ℚ) : ℝ) := by push_cast at hu ⊢; nlinarith
    exact_mod_cast this
  have hf1 := flr_le s
  have hf2 := lt_flr_add_one s
  set m := flr s
  have hp1q : (1 : ℚ) ≤ 2 ^ p := one_le_pow₀ (by norm_num)
  have hkey : 2 ^ p ≤ m.natAbs ∧ m.natAbs < 2 ^ (p + 2) := by
    rcases lt_or_gt_of_ne hs0 with hneg | hpos
    · rw [abs_of_neg hneg] at hl' hu'
      have hm : (m : ℚ) ≤ -2 ^ p := by linarith
      have hm2 : (-(4 * 2 ^ p) : ℚ) < m := by linarith
      have hm : m ≤ -2 ^ p := by exact_mod_cast hm
      have hm2 : -(4 * 2 ^ p) < m := by exact_mod_cast hm2
      have h0 : (0 : ℤ) < 2 ^ p := by positivity
      rw [pow_add]
      have e1 : ((2 ^ p : ℕ) : ℤ) = 2 ^ p := by push_cast; rfl
      omega
    · rw [abs_of_pos hpos] at hl' hu'
      have hm : 2 ^ p ≤ m := le_flr.mpr (by push_cast; exact hl')
      have hm2 : (m : ℚ) < 4 * 2 ^ p := by linarith
      have hm2 : m < 4 * 2 ^ p := by exact_mod_cast hm2
      have h0 : (0 : ℤ) < 2 ^ p := by positivity
      rw [pow_add]
      have e1 : ((2 ^ p : ℕ) : ℤ) = 2 ^ p := by push_cast; rfl
      omega
  refine ⟨?_, Nat.size_le.mpr hkey.2⟩
  rw [show p + 1 = p.succ by rfl, Nat.succ_le_iff, Nat.lt_size]
  exact hkey.1

/-- the minimum over the weights sharing a bitwidth -/
theorem adaptShared_le (n : ℝ) (ws : List ℚ) (w : ℚ) (h : w ∈ ws) : adaptShared n ws ≤ adaptBw n w := by
  unfold adaptShared
  induction ws with
  | nil => cases h
  | cons a ws ih =>
    rw [List.map_cons, List.foldr_cons]
    rcases List.mem_cons.mp h with rfl | h
    · exact min_le_left _ _
    · exact le_trans (min_le_right _ _) (ih h)

theorem adaptShared_mem (n : ℝ) (ws : List ℚ) (h : adaptShared n ws ≠ ⊤) : ∃ w ∈ ws, adaptShared n ws = adaptBw n w := by
  unfold adaptShared at h ⊢
  induction ws with
  | nil => exact absurd rfl h
  | cons a ws ih =>
    rw [List.map_cons, List.foldr_cons] at h ⊢
    rcases min_choice (adaptBw n a) ((ws.map (adaptBw n)).foldr min ⊤) with hc | hc
    · exact ⟨a, by simp, hc⟩
    · rw [hc] at h ⊢
      obtain ⟨w, hw, he⟩ := ih h
      exact ⟨w, by simp [hw], he⟩

/-- weights sharing a bitwidth (rounding to nearest): the largest of them gets `n` or `n + 1` bits and the others at most
`n + 1`; zero weights do not matter; before the clip -/
theorem adapt_shared (st : ℤ) (hst : st ≠ 3) (n : ℕ) (hn : 1 ≤ n) (ws : List ℚ) (w0 : ℚ) (hw0 : w0 ∈ ws) (hw0' : w0 ≠ 0) :
    ∃ fbw : ℝ, adaptShared n ws = fbw ∧
      (∀ w ∈ ws, ∃ m : ℤ, evalQ st (tfRoundR fbw) w = m * (2 : ℚ) ^ (-tfRoundR fbw) ∧ Nat.size m.natAbs ≤ n + 1) ∧
      ∃ w ∈ ws, (∀ w' ∈ ws, |w'| ≤ |w|) ∧
        ∃ m : ℤ, evalQ st (tfRoundR fbw) w = m * (2 : ℚ) ^ (-tfRoundR fbw) ∧ n ≤ Nat.size m.natAbs := by
  have hne : adaptShared n ws ≠ ⊤ := by
    intro h
    have := adaptShared_le n ws w0 hw0
    rw [h, top_le_iff] at this
    unfold adaptBw at this
    rw [if_neg hw0'] at this
    exact WithTop.coe_ne_top this
  obtain ⟨fbw, hfbw⟩ := WithTop.ne_top_iff_exists.mp hne
  obtain ⟨wm, hwm, hwme⟩ := adaptShared_mem n ws hne
  have hwm0 : wm ≠ 0 := by
    rintro rfl
    rw [hwme] at hne
    exact hne (by unfold adaptBw; rw [if_pos rfl])
  have hnew : adaptBw n wm = fbw := by rw [← hwme, hfbw]
  have hlog : fbw = n - Real.logb 2 |(wm : ℝ)| := by
    unfold adaptBw at hnew
    rw [if_neg hwm0] at hnew
    exact (WithTop.coe_injective hnew).symm
  have hmax : ∀ w' ∈ ws, |w'| ≤ |wm| := by
    intro w' hw'
    by_cases h0 : w' = 0
    · rw [h0, abs_zero]; exact abs_nonneg _
    · have := adaptShared_le n ws w' hw'
      rw [← hfbw] at this
      unfold adaptBw at this
      rw [if_neg h0, WithTop.coe_le_coe, hlog] at this
      have h1 : Real.logb 2 |(w' : ℝ)| ≤ Real.logb 2 |(wm : ℝ)| := by linarith
      rw [Real.logb_le_logb (by norm_num) (abs_pos.mpr (by exact_mod_cast h0)) (abs_pos.mpr (by exact_mod_cast hwm0))] at h1
      exact_mod_cast h1
  obtain ⟨m, hm, hm1, hm2⟩ := adapt_bits st hst n hn wm hwm0 fbw hnew fbw (by simp)
  refine ⟨fbw, hfbw.symm, ?_, wm, hwm, hmax, m, hm, hm1⟩
  intro w hw
  refine ⟨_, evalQ_units st (tfRoundR fbw) w, ?_⟩
  rw [if_neg hst]
  rw [evalQ_units, if_neg hst] at hm
  have hm' : flr (wm * p2 (tfRoundR fbw) + 1 / 2) = m := by
    have := mul_right_cancel₀ (p2_ne (-tfRoundR fbw)) hm
    exact_mod_cast this
  rw [Nat.size_le] at hm2 ⊢
  -- the largest weight is below 2^(n+1) - 1/2 units on both sides
  have hr : |((tfRoundR fbw : ℤ) : ℝ) - (((n : ℤ) : ℝ) - Real.logb 2 |(wm : ℝ)|)| ≤ 3 / 4 := by
    have h1 := abs_le.mp (tfRoundR_bounds fbw)
    rw [abs_le]
    push_cast
    constructor <;> linarith
  obtain ⟨-, hu⟩ := adapt_scaled hwm0 hr
  have h2 := two_rpow_three_quarters
  set s := w * p2 (tfRoundR fbw)
  have hsle : |s| ≤ |wm * p2 (tfRoundR fbw)| := by
    rw [abs_mul, abs_mul]
    exact mul_le_mul_of_nonneg_right (hmax w hw) (abs_nonneg _)
  have hd := round_dist s
  set k := flr (s + 1 / 2)
  have hda : |(|(k : ℚ)| - |s|)| ≤ 1 / 2 := le_trans (abs_abs_sub_abs_le_abs_sub _ _) hd
  rw [← natAbs_cast] at hda
  have hda' := abs_le.mp hda
  have hdr1 : ((k.natAbs : ℕ) : ℝ) ≤ ((|wm * p2 (tfRoundR fbw)| : ℚ) : ℝ) + 1 / 2 := by
    have : ((k.natAbs : ℕ) : ℚ) ≤ |wm * p2 (tfRoundR fbw)| + 1 / 2 := by linarith
    have := (Rat.cast_le (K := ℝ)).mpr this
    push_cast at this ⊢
    exact this
  obtain ⟨p, rfl⟩ : ∃ p, n = p + 1 := ⟨n - 1, by omega⟩
  have hpp : (2 : ℝ) ^ ((p + 1 : ℕ) : ℤ) = 2 * 2 ^ p := by rw [zpow_natCast, pow_succ]; ring
  rw [hpp] at hu
  have hp1 : (1 : ℝ) ≤ 2 ^ p := one_le_pow₀ (by norm_num)
  have h3 : ((k.natAbs : ℕ) : ℝ) < 2 ^ (p + 1 + 1) := by
    rw [pow_succ, pow_succ]
    nlinarith
  exact_mod_cast h3

/-- the clip does nothing inside its range, which in terms of the weight is the interval [2^(n-hi), 2^(n-lo)] -/
theorem clip_inside (n : ℕ) (lo hi : ℤ) (w : ℚ) (hw : w ≠ 0) (h1 : (2 : ℚ) ^ ((n : ℤ) - hi) ≤ |w|) (h2 : |w| ≤ (2 : ℚ) ^ ((n : ℤ) - lo)) :
    adaptBw n w = ((clipFbw lo hi (adaptBw n w) : ℝ) : WithTop ℝ) := by
  have hwp : (0 : ℝ) < |(w : ℝ)| := abs_pos.mpr (by exact_mod_cast hw)
  have e1 : ((n : ℝ) - hi) ≤ Real.logb 2 |(w : ℝ)| := by
    rw [Real.le_logb_iff_rpow_le (by norm_num) hwp]
    have := (Rat.cast_le (K := ℝ)).mpr h1
    push_cast at this
    rw [← Real.rpow_intCast] at this
    push_cast at this
    exact this
  have e2 : Real.logb 2 |(w : ℝ)| ≤ (n : ℝ) - lo := by
    rw [Real.logb_le_iff_le_rpow (by norm_num) hwp]
    have := (Rat.cast_le (K := ℝ)).mpr h2
    push_cast at this
    rw [← Real.rpow_intCast] at this
    push_cast at this
    exact this
  unfold adaptBw
  rw [if_neg hw]
  show _ = ((max (lo : ℝ) (min _ (hi : ℝ)) : ℝ) : WithTop ℝ)
  rw [min_eq_left (by linarith), max_eq_right (by linarith)]

/-- **C59**, rounding to nearest: whatever the scale of the weight, it is represented with `n` or `n + 1` magnitude bits, as long as the
adapted bitwidth is within the clip range `lo`..`hi` (-23..23 by default). `fbw` is the bitwidth used by the next call, computed with
an error of at most a quarter (float32 logarithms). -/
theorem C59_bits (st : ℤ) (hst : st ≠ 3) (n : ℕ) (hn : 1 ≤ n) (w : ℚ) (lo hi : ℤ) (h1 : (2 : ℚ) ^ ((n : ℤ) - hi) ≤ |w|)
    (h2 : |w| ≤ (2 : ℚ) ^ ((n : ℤ) - lo)) (fbw : ℝ) (herr : |fbw - clipFbw lo hi (adaptBw n w)| ≤ 1 / 4) :
    ∃ m : ℤ, evalQ st (tfRoundR fbw) w = m * (2 : ℚ) ^ (-tfRoundR fbw) ∧ n ≤ Nat.size m.natAbs ∧ Nat.size m.natAbs ≤ n + 1 := by
  have hw : w ≠ 0 := abs_pos.mp (lt_of_lt_of_le (zpow2_pos _) h1)
  exact adapt_bits st hst n hn w hw _ (clip_inside n lo hi w hw h1 h2) fbw herr

/-- **C59**, strategy 'floor', exact logarithm. -/
theorem C59_bits_floor (n : ℕ) (hn : 1 ≤ n) (w : ℚ) (lo hi : ℤ) (h1 : (2 : ℚ) ^ ((n : ℤ) - hi) ≤ |w|)
    (h2 : |w| ≤ (2 : ℚ) ^ ((n : ℤ) - lo)) (fbw : ℝ) (hf : fbw = clipFbw lo hi (adaptBw n w)) :
    ∃ m : ℤ, evalQ 3 (tfRoundR fbw) w = m * (2 : ℚ) ^ (-tfRoundR fbw) ∧ n ≤ Nat.size m.natAbs ∧ Nat.size m.natAbs ≤ n + 1 := by
  have hw : w ≠ 0 := abs_pos.mp (lt_of_lt_of_le (zpow2_pos _) h1)
  exact adapt_bits_floor n hn w hw fbw (by rw [hf]; exact clip_inside n lo hi w hw h1 h2)

/-- **C59**, weights sharing a bitwidth (rounding to nearest): if the largest in magnitude, `wm`, is within the clip range, it gets `n` or
`n + 1` bits and every other at most `n + 1`; zero weights in the group do not matter. -/
theorem C59_shared (st : ℤ) (hst : st ≠ 3) (n : ℕ) (hn : 1 ≤ n) (ws : List ℚ) (wm : ℚ) (hwm : wm ∈ ws) (hmax : ∀ w ∈ ws, |w| ≤ |wm|)
    (lo hi : ℤ) (h1 : (2 : ℚ) ^ ((n : ℤ) - hi) ≤ |wm|) (h2 : |wm| ≤ (2 : ℚ) ^ ((n : ℤ) - lo)) (fbw : ℝ)
    (hf : fbw = clipFbw lo hi (adaptShared n ws)) :
    (∀ w ∈ ws, ∃ m : ℤ, evalQ st (tfRoundR fbw) w = m * (2 : ℚ) ^ (-tfRoundR fbw) ∧ Nat.size m.natAbs ≤ n + 1) ∧
      ∃ m : ℤ, evalQ st (tfRoundR fbw) wm = m * (2 : ℚ) ^ (-tfRoundR fbw) ∧ n ≤ Nat.size m.natAbs := by
  have hw : wm ≠ 0 := abs_pos.mp (lt_of_lt_of_le (zpow2_pos _) h1)
  have hsh : adaptShared n ws = adaptBw n wm := by
    refine le_antisymm (adaptShared_le n ws wm hwm) ?_
    obtain ⟨f, hf', -, w', hw', hw'm, -⟩ := adapt_shared st hst n hn ws wm hwm hw
    obtain ⟨w'', hw'', he⟩ := adaptShared_mem n ws (by rw [hf']; exact WithTop.coe_ne_top)
    rw [he]
    have hw''0 : w'' ≠ 0 := by
      rintro rfl
      rw [hf'] at he
      unfold adaptBw at he
      rw [if_pos rfl] at he
      exact WithTop.coe_ne_top he
    unfold adaptBw
    rw [if_neg hw, if_neg hw''0, WithTop.coe_le_coe]
    have : Real.logb 2 |(w'' : ℝ)| ≤ Real.logb 2 |(wm : ℝ)| := by
      rw [Real.logb_le_logb (by norm_num) (abs_pos.mpr (by exact_mod_cast hw''0)) (abs_pos.mpr (by exact_mod_cast hw))]
      exact_mod_cast hmax w'' hw''
    linarith
  rw [hsh] at hf
  have hnew : adaptBw n wm = fbw := by rw [hf]; exact clip_inside n lo hi wm hw h1 h2
  obtain ⟨f, hf', ha, -⟩ := adapt_shared st hst n hn ws wm hwm hw
  have hff : f = fbw := by
    rw [hsh, hnew] at hf'
    exact (WithTop.coe_injective hf').symm
  subst hff
  obtain ⟨m, hm, hm1, -⟩ := adapt_bits st hst n hn wm hw f hnew f (by simp)
  exact ⟨ha, m, hm, hm1⟩

/-- Beyond the clip the claim is false: with the default range, a weight below 2^-24 is quantized to zero whatever the initial bitwidth. -/
theorem C59_tiny_weight (st : ℤ) (hst : st ≠ 3) (n : ℕ) (w : ℚ) (hw : |w| < (2 : ℚ) ^ (-24 : ℤ)) :
    evalQ st (tfRoundR (clipFbw (-23) 23 (adaptBw n w))) w = 0 := by
  set r := tfRoundR (clipFbw (-23) 23 (adaptBw n w)) with hr
  have hle : clipFbw (-23) 23 (adaptBw n w) ≤ 23 := by
    cases adaptBw n w with
    | top => exact le_refl _
    | coe x => show max (-23 : ℝ) (min x 23) ≤ 23; exact max_le (by norm_num) (min_le_right _ _)
  have hr23 : r ≤ 23 := by
    have h1 := abs_le.mp (tfRoundR_bounds (clipFbw (-23) 23 (adaptBw n w)))
    rw [← hr] at h1
    have : (r : ℝ) < 24 := by linarith
    have : r < 24 := by exact_mod_cast this
    omega
  rw [evalQ_units, if_neg hst]
  have hs : |w * p2 r| < 1 / 2 := by
    rw [abs_mul, abs_of_pos (p2_pos r)]
    have h1 : p2 r ≤ p2 23 := p2_le_p2 hr23
    have h2 : (2 : ℚ) ^ (-24 : ℤ) * p2 23 = 1 / 2 := by unfold p2; norm_num
    calc |w| * p2 r ≤ |w| * p2 23 := mul_le_mul_of_nonneg_left h1 (abs_nonneg _)
      _ < (2 : ℚ) ^ (-24 : ℤ) * p2 23 := mul_lt_mul_of_pos_right hw (p2_pos _)
      _ = 1 / 2 := h2
  have hs' := abs_lt.mp hs
  have : flr (w * p2 r + 1 / 2) = 0 := by
    rw [show flr (w * p2 r + 1 / 2) = ⌊w * p2 r + 1 / 2⌋ from rfl, Int.floor_eq_zero_iff]
    exact ⟨by linarith, by linarith⟩
  rw [this]
  simp

/-- A weight adapted twice is not given `n` bits: the second call subtracts the logarithm again. For when layers do
it more than once see C94. -/
theorem C59_twice (n : ℕ) (w : ℚ) (hw : w ≠ 0) (hne : |w| ≠ 1) :
    adaptBw (n - Real.logb 2 |(w : ℝ)|) w ≠ adaptBw n w := by
  unfold adaptBw
  rw [if_neg hw, if_neg hw]
  intro h
  have h := WithTop.coe_injective h
  have h0 : Real.logb 2 |(w : ℝ)| = 0 := by linarith
  rw [Real.logb_eq_zero] at h0
  have hw' : (w : ℝ) ≠ 0 := by exact_mod_cast hw
  rcases h0 with h | h | h | h | h | h
  · norm_num at h
  · norm_num at h
  · norm_num at h
  · exact hw' (abs_eq_zero.mp h)
  · exact hne (by exact_mod_cast h)
  · have := abs_nonneg (w : ℝ); linarith

/-- From 2 bits, 1.5 is within the default clip range; with one fractional bit it is 3 units. -/
example : (2 : ℚ) ^ (((2 : ℕ) : ℤ) - 23) ≤ |(3 / 2 : ℚ)| ∧ |(3 / 2 : ℚ)| ≤ (2 : ℚ) ^ (((2 : ℕ) : ℤ) - -23) ∧
    evalQ 0 (1 : ℤ) (3 / 2) = ((3 : ℤ) : ℚ) * (2 : ℚ) ^ (-1 : ℤ) ∧ Nat.size 3 = 2 := by decide +kernel

/-- A group with a zero and a small weight. -/
example : ∀ w ∈ [0, 3 / 8, -5 / 4, (1 / 100 : ℚ)], |w| ≤ |(-5 / 4 : ℚ)| := by decide +kernel

end HGQ
