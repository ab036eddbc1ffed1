import Verif.Lemmas.Train32
import Verif.Props.Layer

/-!
C83: the quantizer in training, in float32, and the ranges it records.
-/

namespace HGQ
open Spec

/-- **C83**: with the default clip range of the bitwidths, on every float32 input below 2^23 units, what the quantizer returns in
training differs from what it returns at inference by at most 2^-17 units. -/
theorem C83_close (strategy : ℤ) (fbw x : ℚ) (hx : IsFloat32 x) (hb : |x * (2 : ℚ) ^ tfRound fbw| < 2 ^ 23) (hf : |fbw| ≤ 23) :
    |trainQ32 strategy fbw x - evalQF fl32 strategy fbw x| ≤ (2 : ℚ) ^ (-tfRound fbw) / 2 ^ 17 := by
  obtain ⟨n, hn, he, t, ht, htr⟩ := train_eval (strategy := strategy) hx hb hf
  rw [he, htr]
  change _ ≤ p2 _ / _
  generalize tfRound fbw = f at *
  have hU := p2_pos (-f)
  by_cases h6 : 2 ^ 6 ≤ |n|
  · rw [fl32_absorb_large 6 h6 hn (by convert ht using 2; push_cast; ring), sub_self, abs_zero]
    positivity
  · push Not at h6
    have e19 : p2 (-f - 19) = p2 (-f) / 2 ^ 19 := by exact_mod_cast p2_shift_neg (-f) 19
    have e18 : p2 (-f + 7 - 25) = p2 (-f) / 2 ^ 18 := by
      rw [show -f + 7 - 25 = -f - (18 : ℕ) by push_cast; ring]; exact p2_shift_neg (-f) 18
    have e7 : p2 (-f + 7) = 2 ^ 7 * p2 (-f) := by exact_mod_cast p2_shift (-f) 7
    rw [e19] at ht
    have hnU : |(n : ℚ) * p2 (-f)| ≤ 2 ^ 6 * p2 (-f) := by
      rw [abs_mul, abs_of_pos hU]
      refine mul_le_mul_of_nonneg_right ?_ hU.le
      exact_mod_cast h6.le
    have hlt : |n * p2 (-f) + t| < p2 (-f + 7) := by
      have := abs_add_le (n * p2 (-f)) t
      rw [e7]; linarith
    have hE := fl32_error hlt
    rw [e18] at hE
    have h1 : fl32 (n * p2 (-f) + t) - n * p2 (-f) = (fl32 (n * p2 (-f) + t) - (n * p2 (-f) + t)) + t := by ring
    rw [h1]
    have := abs_add_le (fl32 (n * p2 (-f) + t) - (n * p2 (-f) + t)) t
    linarith

/-- **C83**, results of at least 64 units: training and inference return the same float32 number. Missing from the full property:
smaller results, where they may differ (`C83_differs`). -/
theorem C83_large_equal_partial (strategy : ℤ) (fbw x : ℚ) (hx : IsFloat32 x) (hb : |x * (2 : ℚ) ^ tfRound fbw| < 2 ^ 23)
    (hf : |fbw| ≤ 23) (h64 : 64 * (2 : ℚ) ^ (-tfRound fbw) ≤ |evalQF fl32 strategy fbw x|) :
    trainQ32 strategy fbw x = evalQF fl32 strategy fbw x := by
  obtain ⟨n, hn, he, t, ht, htr⟩ := train_eval (strategy := strategy) hx hb hf
  rw [he] at h64 ⊢
  rw [htr]
  change 64 * p2 _ ≤ _ at h64
  generalize tfRound fbw = f at *
  have hU := p2_pos (-f)
  have h6 : 2 ^ 6 ≤ |n| := by
    rw [abs_mul, abs_of_pos hU] at h64
    have := le_of_mul_le_mul_right h64 hU
    exact_mod_cast this
  exact fl32_absorb_large 6 h6 hn (by convert ht using 2; push_cast; ring)

/-- **C83**, without relu: the type derived from any range that was recorded while training on `x` (among other data) contains the
inference result for `x`. -/
theorem C83_range_covers (strategy : ℤ) (fbw x : ℚ) (hx : IsFloat32 x) (hb : |x * (2 : ℚ) ^ tfRound fbw| < 2 ^ 23) (hf : |fbw| ≤ 23)
    (lo hi : ℚ) (h1 : lo ≤ trainQ32 strategy fbw x) (h2 : trainQ32 strategy fbw x ≤ hi)
    (hl : -(2 : ℚ) ^ (32 : ℤ) ≤ evalQF fl32 strategy fbw x) (hh : evalQF fl32 strategy fbw x < (2 : ℚ) ^ (32 : ℤ)) :
    IsKif (bitsExact lo hi fbw false).k (bitsExact lo hi fbw false).i (bitsExact lo hi fbw false).f (evalQF fl32 strategy fbw x) := by
  have hc := C83_close strategy fbw x hx hb hf
  obtain ⟨n, hn, he, -⟩ := train_eval (strategy := strategy) hx hb hf
  generalize evalQF fl32 strategy fbw x = v at *
  generalize trainQ32 strategy fbw x = w at *
  change -p2 32 ≤ v at hl
  change v < p2 32 at hh
  change _ ≤ p2 _ / _ at hc
  have hU := p2_pos (-tfRound fbw)
  obtain ⟨hc1, hc2⟩ := abs_le.mp hc
  have hc1 : v - p2 (-tfRound fbw) / 4 ≤ hi := by linarith
  have hc2 : lo ≤ v + p2 (-tfRound fbw) / 4 := by linarith
  unfold bitsExact
  simp only [Bool.false_eq_true, if_false]
  apply isKif_mask
  · split_ifs <;> simp
  refine ⟨⟨n, he⟩, ?_, ?_⟩
  · change -(_ * p2 _) ≤ v
    by_cases hv : 0 ≤ v
    · have : (0 : ℚ) ≤ ((if lo < 0 then 1 else 0 : ℤ) : ℚ) := by split_ifs <;> norm_num
      have hp := p2_pos (clipBits (max (ceilLog2 |lo|) (ceilLog2 |hi + p2 (-tfRound fbw)|)) (-tfRound fbw - if lo < 0 then 1 else 0))
      have := mul_nonneg this hp.le
      linarith
    · push Not at hv
      have hn1 : n ≤ -1 := by
        by_contra hge
        push Not at hge
        have : 0 ≤ n := by omega
        have : (0 : ℚ) ≤ n := by exact_mod_cast this
        have := mul_nonneg this hU.le
        rw [← he] at this; linarith
      have hn1' : (n : ℚ) ≤ -1 := by exact_mod_cast hn1
      have hvU : v ≤ -p2 (-tfRound fbw) := by rw [he]; nlinarith
      have hlo : lo < 0 := by linarith
      rw [if_pos hlo]
      have habs : |lo| = -lo := abs_of_neg hlo
      have hc : ceilLog2 |lo| = (Int.clog 2 |lo| : ℤ) := by
        unfold ceilLog2; rw [if_neg]; rw [habs]; linarith
      have hp : 0 < |lo| := by rw [habs]; linarith
      have hcl := (le_p2_clog _ hp).mpr le_rfl
      have : -v ≤ p2 (clipBits (max (ceilLog2 |lo|) (ceilLog2 |hi + p2 (-tfRound fbw)|)) (-tfRound fbw - 1)) := by
        apply le_p2_clipBits (n := Int.clog 2 |lo|)
        · rw [hc]; exact le_max_left _ _
        · -- a power of two at least `-n - 1/4` units is at least `-n` units
          have hlogf : -tfRound fbw ≤ Int.clog 2 |lo| := by
            have : p2 (-tfRound fbw - 1) < p2 (Int.clog 2 |lo|) := by
              refine lt_of_lt_of_le ?_ hcl
              have : p2 (-tfRound fbw) = 2 * p2 (-tfRound fbw - 1) := by rw [← p2_succ]; congr 1; ring
              rw [habs]; linarith
            have := lt_of_p2_lt this
            omega
          obtain ⟨j, hj⟩ := Int.le.dest hlogf
          rw [← hj, p2_shift] at hcl ⊢
          have : (-n : ℚ) - 1 / 4 ≤ 2 ^ j := by
            have : ((-n : ℚ) - 1 / 4) * p2 (-tfRound fbw) ≤ 2 ^ j * p2 (-tfRound fbw) := by
              rw [habs] at hcl
              rw [he] at hc2
              linarith
            exact le_of_mul_le_mul_right this hU
          have h3 : -n ≤ 2 ^ j := by
            by_contra hlt
            push Not at hlt
            have : (2 ^ j : ℤ) + 1 ≤ -n := by omega
            have : ((2 ^ j : ℤ) : ℚ) + 1 ≤ ((-n : ℤ) : ℚ) := by exact_mod_cast this
            push_cast at this
            linarith
          have h4 : ((-n : ℤ) : ℚ) ≤ ((2 ^ j : ℤ) : ℚ) := by exact_mod_cast h3
          push_cast at h4
          rw [he]
          have := mul_le_mul_of_nonneg_right h4 hU.le
          linarith
        · linarith
      push_cast; linarith
  · change v < p2 _
    by_cases hv : v < 0
    · exact lt_trans hv (p2_pos _)
    · push Not at hv
      have hp : 0 < hi + p2 (-tfRound fbw) := by linarith
      rw [abs_of_pos hp]
      have hc : ceilLog2 (hi + p2 (-tfRound fbw)) = (Int.clog 2 (hi + p2 (-tfRound fbw)) : ℤ) := by
        unfold ceilLog2; rw [if_neg hp.ne']
      apply lt_p2_clipBits (n := Int.clog 2 (hi + p2 (-tfRound fbw)))
      · rw [hc]; exact le_max_right _ _
      · have := (le_p2_clog _ hp).mpr le_rfl
        linarith
      · exact hh

/-- **C83**, with relu: the same for results that are negative or at least 64 units. Missing from the full property: positive results
below 64 units, where the type may be too small (`C83_relu_overflow`). -/
theorem C83_relu_covers_partial (strategy : ℤ) (fbw x : ℚ) (hx : IsFloat32 x) (hb : |x * (2 : ℚ) ^ tfRound fbw| < 2 ^ 23)
    (hf : |fbw| ≤ 23) (lo hi : ℚ) (h2 : trainQ32 strategy fbw x ≤ hi) (hh : hi < (2 : ℚ) ^ (32 : ℤ))
    (h64 : evalQF fl32 strategy fbw x ≤ 0 ∨ 64 * (2 : ℚ) ^ (-tfRound fbw) ≤ evalQF fl32 strategy fbw x) :
    IsKif (bitsExact lo hi fbw true).k (bitsExact lo hi fbw true).i (bitsExact lo hi fbw true).f
      (max (evalQF fl32 strategy fbw x) 0) := by
  obtain ⟨n, hn, he, -⟩ := train_eval (strategy := strategy) hx hb hf
  rcases h64 with h0 | h64
  · rw [max_eq_right h0]
    by_cases hneg : 0 ≤ hi
    · have := bitsExact_pos_covers (mn := lo) (fbw := fbw) (v := 0) ⟨0, by simp⟩ hneg hh
      rwa [max_self] at this
    · have := bitsExact_pos_covers (mn := lo) (fbw := fbw) (v := min 0 (flr (hi * p2 (tfRound fbw)) * p2 (-tfRound fbw))) (mx := hi) ?_ ?_ hh
      · rwa [max_eq_right (min_le_left _ _)] at this
      · rcases min_choice (0 : ℚ) (flr (hi * p2 (tfRound fbw)) * p2 (-tfRound fbw)) with h | h
        · exact ⟨0, by rw [h]; simp⟩
        · exact ⟨_, h⟩
      · refine le_trans (min_le_right _ _) ?_
        calc _ ≤ hi * p2 (tfRound fbw) * p2 (-tfRound fbw) := mul_le_mul_of_nonneg_right (flr_le _) (p2_pos _).le
          _ = hi := by rw [mul_assoc, p2_mul_neg, mul_one]
  · have heq := C83_large_equal_partial strategy fbw x hx hb hf (le_trans h64 (le_abs_self _))
    exact bitsExact_pos_covers ⟨n, he⟩ (by rw [← heq]; exact h2) hh

-- 33/64 of a unit: rounded up to one unit at inference; in training the result is slightly less than one unit
example : IsFloat32 (33 / 2048) ∧ evalQF fl32 0 5 (33 / 2048) = 1 / 32 ∧ trainQ32 0 5 (33 / 2048) = 8388607 / 2 ^ 28 :=
  ⟨⟨33, -11, by norm_num, by norm_num⟩, by decide +kernel, by decide +kernel⟩
example : trainQ32 0 2 (1234567 / 2 ^ 16) = evalQF fl32 0 2 (1234567 / 2 ^ 16) :=
  C83_large_equal_partial 0 2 _ ⟨1234567, -16, by norm_num, by norm_num⟩ (by
    have : tfRound (2 : ℚ) = 2 := by decide +kernel
    rw [this]; rw [abs_lt]; constructor <;> norm_num) (by norm_num) (by
    have : tfRound (2 : ℚ) = 2 := by decide +kernel
    rw [this]; decide +kernel)

/-- Negation of **C83**: `x` = 13421773/2^27 (the float32 number nearest to 0.1) with two fractional bits is quantized to 0 at
inference; in training the result is 2^-27. -/
theorem C83_differs : IsFloat32 (13421773 / 2 ^ 27) ∧ evalQF fl32 0 2 (13421773 / 2 ^ 27) = 0 ∧ trainQ32 0 2 (13421773 / 2 ^ 27) = 1 / 2 ^ 27 :=
  ⟨⟨13421773, -27, by norm_num, by norm_num⟩, by decide +kernel, by decide +kernel⟩

/-- a consequence: a quantizer that always returns 0 at inference is given a type of one bit when its range was recorded in
training, and of no bits when it was recorded at inference -/
theorem C83_wasted_bits :
    let tr := trainQ32 0 2 (13421773 / 2 ^ 27)
    let ev := evalQF fl32 0 2 (13421773 / 2 ^ 27)
    bitsExact tr tr 2 false = ⟨0, -1, 2⟩ ∧ bitsExact ev ev 2 false = ⟨0, 0, 0⟩ := by
  decide +kernel

/-- a dense layer with one input, kernel 1, no bias, relu, default rounding -/
def exTrainRelu : LinLayer where
  outShape := [1]
  qShape := [1]
  chLoc := .last
  jitLoc := .last
  nChan := 1
  taps := fun _ => [(0, 0)]
  kernel := fun _ => 1
  kq := ⟨0, true, none, fun _ => 1, 7 / 10⟩
  kfbw := fun _ => 3
  bias := none
  reluAct := true
  paq := ⟨0, true, some (-23, 23), fun _ => 1, 7 / 10⟩

/-- the range recorded by one training step on the input 33/2048 -/
def exTrainState : QState where
  fbw := fun _ => 5
  mn := fun _ => ((trainQ32 0 5 (33 / 2048) : ℚ) : WithTop ℚ)
  mx := fun _ => ((trainQ32 0 5 (33 / 2048) : ℚ) : WithBot ℚ)

/-- Negation of **C83** with relu: the layer trained on the input 33/2048 (with the range recorded during that training step) returns
1/32 for this input at inference; the recorded maximum is slightly smaller, conversion is not refused, the derived type of the
relu output has no bits, and the proxy returns 0. -/
theorem C83_relu_overflow :
    (exTrainRelu.pre exTrainState.fbw [33 / 2048] 0 = 33 / 2048) ∧
      (exTrainState.getBitsExact 1 false).toBool = true ∧
      exTrainRelu.post (evalQF fl32 0 5 (33 / 2048)) = 1 / 32 ∧ exTrainRelu.post (exTrainRelu.quant exTrainState [33 / 2048] 0) = 1 / 32 ∧
      exTrainRelu.proxyOut exTrainState (proxySat true) [33 / 2048] 0 = 0 := by
  decide +kernel

end HGQ
