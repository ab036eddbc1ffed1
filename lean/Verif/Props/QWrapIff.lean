import Verif.Props.Qkeras

/-!
C60, exactly: the inputs on which a `quantized_bits` layer converted with the default overflow mode computes the quantizer.
-/

namespace HGQ.Qkeras

open Spec

/-- **C60**, exactly, for the default overflow mode WRAP. Let `n` be the input in units of the least bit, rounded to even. The layer computes the
quantizer for this input if and only if `n` lies in the range of the type, or above it at the greatest value plus a multiple of `2^w`, or below it at
the least value minus a multiple of `2^w`. -/
theorem C60_wrap_iff (w : ℕ) (i : ℤ) (kn : Bool) (hb : kn.toInt < w) (x : ℚ) (n : ℤ)
    (hn : IsRoundEven (x * (2 : ℚ) ^ ((w : ℤ) - kn.toInt) / (2 : ℚ) ^ i) n) :
    ∃ ls, quantizerToLayers (.bits w i kn 0 (.num 1)) .WRAP = .ok ls ∧
      (QuantizedBits w i kn false x (run ls x) ↔
        let low : ℤ := if kn then -2 ^ (w - 1) else 0
        let high : ℤ := if kn then 2 ^ (w - 1) - 1 else 2 ^ w - 1
        low ≤ n ∧ n ≤ high ∨ high < n ∧ (2 ^ w : ℤ) ∣ n - high ∨ n < low ∧ (2 ^ w : ℤ) ∣ low - n) := by
  have hb0 : (w : ℤ) ≠ 0 := by cases kn <;> simp [Bool.toInt] at hb <;> omega
  have hw : 1 ≤ w := by omega
  refine ⟨[mkFixed kn.toInt w (i + kn.toInt) .RND_CONV .WRAP], by simp [quantizerToLayers], ?_⟩
  obtain ⟨ls, hls, hq⟩ := C60_quantized_bits w i kn false hb .SAT (Or.inr rfl)
  have hls' : ls = [mkFixed kn.toInt w (i + kn.toInt) .RND_CONV .SAT] := by
    simp [quantizerToLayers, Bool.toInt] at hls
    cases kn <;> simpa [Bool.toInt] using hls.symm
  have hq := hq x
  rw [scale_eq] at hn
  have e : tfRound (x * p2 (w - (i + kn.toInt))) = n := isRoundEven_unique (tfRound_isRoundEven _) hn
  have hr : rndMap .RND_CONV (x * p2 (w - (i + kn.toInt))) = (n : ℚ) := by rw [← e]; rfl
  rw [hls', fixed_apply _ _ _ hb0, hr] at hq
  rw [fixed_apply _ _ _ hb0, hr]
  change QuantizedBits _ _ _ _ _ (satSAT _ _ _ * _) at hq
  change QuantizedBits _ _ _ _ _ (satWRAP _ _ _ * _) ↔ (lowB kn w ≤ n ∧ n ≤ highB kn w ∨ highB kn w < n ∧ (2 ^ w : ℤ) ∣ n - highB kn w ∨
    n < lowB kn w ∧ (2 ^ w : ℤ) ∣ lowB kn w - n)
  rw [satSAT_int kn hw] at hq
  rw [satWRAP_int kn hw]
  have hp := p2_ne (i + kn.toInt - w)
  have hlh := (lowB_nonpos kn w).trans (highB_nonneg kn w)
  have step : QuantizedBits w i kn false x ((truncateBits kn w n : ℚ) * p2 (i + kn.toInt - w)) ↔
      truncateBits kn w n = min (max n (lowB kn w)) (highB kn w) := by
    constructor
    · intro h
      have := mul_right_cancel₀ hp (quantizedBits_unique h hq)
      exact_mod_cast this
    · intro h
      rw [h]
      exact hq
  rw [step]
  have hc := truncateBits_congr kn w n
  rcases lt_or_ge n (lowB kn w) with h1 | h1
  · rw [max_eq_right h1.le, min_eq_left hlh]
    constructor
    · intro h
      rw [h] at hc
      exact .inr (.inr ⟨h1, by rw [← neg_sub, dvd_neg] at hc; exact hc⟩)
    · rintro (h | h | h)
      · omega
      · omega
      · exact (eq_truncateBits hw le_rfl hlh (by rw [← neg_sub, dvd_neg]; exact h.2)).symm
  · rcases le_or_gt n (highB kn w) with h2 | h2
    · rw [max_eq_left h1, min_eq_left h2]
      exact iff_of_true (truncateBits_of_range hw h1 h2) (.inl ⟨h1, h2⟩)
    · rw [max_eq_left h1, min_eq_right h2.le]
      constructor
      · intro h
        rw [h] at hc
        exact .inr (.inl ⟨h2, hc⟩)
      · rintro (h | h | h)
        · omega
        · exact (eq_truncateBits hw hlh le_rfl h.2).symm
        · omega

-- 23 is 7 + 16: a four-bit type wraps it to its greatest value, which is where the quantizer saturates
example : IsRoundEven ((23 : ℚ) * (2 : ℚ) ^ (((4 : ℕ) : ℤ) - true.toInt) / (2 : ℚ) ^ (3 : ℤ)) 23 ∧
    run [mkFixed 1 4 4 .RND_CONV .WRAP] 23 = 7 ∧ run [mkFixed 1 4 4 .RND_CONV .WRAP] 9 = -7 := by
  refine ⟨?_, by decide +kernel, by decide +kernel⟩
  have : (23 : ℚ) * (2 : ℚ) ^ (((4 : ℕ) : ℤ) - true.toInt) / (2 : ℚ) ^ (3 : ℤ) = 23 := by decide +kernel
  rw [this]
  have h := tfRound_isRoundEven 23
  rwa [show tfRound 23 = 23 by decide +kernel] at h

end HGQ.Qkeras
