import Verif.Lemmas.Rounding

/-!
Properties C01-C09: the proxy model's fixed-point quantizer.

`s.toInt` is 1 for a signed and 0 for an unsigned type (`keep_negative`).
-/

namespace HGQ

open Spec

/-- The two specifications of a fixed-point type (bit patterns / multiples in an interval) agree. -/
theorem spec_kif_iff_apfixed (s : Bool) (w : ℕ) (i : ℤ) (y : ℚ) :
    IsApFixed s w i y ↔ IsKif s.toInt (i - s.toInt) (w - i) y := by
  rcases Nat.eq_zero_or_pos w with rfl | hw
  · rw [isApFixed_zero_width]
    constructor
    · rintro rfl
      refine ⟨⟨0, by simp⟩, ?_, zpow2_pos _⟩
      have := zpow2_pos (i - 1)
      cases s
      · simp
      · simp only [toInt_true]; push_cast; linarith
    · rintro ⟨⟨n, rfl⟩, h1, h2⟩
      have e : (-(((0 : ℕ) : ℤ) - i)) = i := by simp
      rw [e] at h1 h2 ⊢
      have hp : (0 : ℚ) < 2 ^ i := zpow2_pos i
      cases s
      · simp only [toInt_false, Int.cast_zero, zero_mul, neg_zero, sub_zero] at h1 h2
        have a1 : (0 : ℚ) ≤ n := by
          by_contra hc; push Not at hc; nlinarith
        have a2 : (n : ℚ) < 1 := by
          by_contra hc; push Not at hc; nlinarith
        have a1' : 0 ≤ n := by exact_mod_cast a1
        have a2' : n < 1 := by exact_mod_cast a2
        have : n = 0 := by omega
        simp [this]
      · simp only [toInt_true, Int.cast_one, one_mul] at h1 h2
        have e2 : (2 : ℚ) ^ i = 2 * 2 ^ (i - 1) := by
          have := p2_succ (i - 1); unfold p2 at this; simpa using this
        have hp' : (0 : ℚ) < 2 ^ (i - 1) := zpow2_pos _
        rw [e2] at h1 h2 ⊢
        have a1 : (-1 : ℚ) < n := by
          by_contra hc; push Not at hc; nlinarith
        have a2 : (n : ℚ) < 1 := by
          by_contra hc; push Not at hc; nlinarith
        have a1' : -1 < n := by exact_mod_cast a1
        have a2' : n < 1 := by exact_mod_cast a2
        have : n = 0 := by omega
        simp [this]
  · rw [isApFixed_iff hw]
    have hp := p2_pos (i - w)
    have e1 : (2 : ℚ) ^ (-((w : ℤ) - i)) = p2 (i - w) := by unfold p2; congr 1; ring
    have hh := code_high s hw
    have hl := code_low s hw
    have e2 : (2 : ℚ) ^ (i - s.toInt) = ((highB s w : ℚ) + 1) * p2 (i - w) := by
      have : (highB s w : ℚ) + 1 = p2 ((w : ℤ) - s.toInt) := by linarith
      rw [this, ← p2_add]; unfold p2; congr 1; ring
    have e3 : -((s.toInt : ℚ) * (2 : ℚ) ^ (i - s.toInt)) = (lowB s w : ℚ) * p2 (i - w) := by
      rw [e2, ← hl]; ring
    unfold IsKif
    rw [e1, e3, e2]
    constructor
    · rintro ⟨n, rfl, h1, h2⟩
      refine ⟨⟨n, rfl⟩, ?_, ?_⟩
      · have : (lowB s w : ℚ) ≤ n := by exact_mod_cast h1
        nlinarith
      · have : (n : ℚ) ≤ highB s w := by exact_mod_cast h2
        nlinarith
    · rintro ⟨⟨n, rfl⟩, h1, h2⟩
      refine ⟨n, rfl, ?_, ?_⟩
      · have : (lowB s w : ℚ) ≤ n := le_of_mul_le_mul_right h1 hp
        exact_mod_cast this
      · have : (n : ℚ) < highB s w + 1 := lt_of_mul_lt_mul_right h2 hp.le
        have : n < highB s w + 1 := by exact_mod_cast this
        omega

/-! ### C01 -/

/-- C01: whatever is fed in, the output is a value of the declared type. -/
theorem C01_output_in_type (x : ℚ) (s : Bool) (w : ℕ) (i : ℤ) (R : Rnd) (S : Sat) :
    IsApFixed s w i (gfixedQuantizer x s.toInt w i R S) := by
  rcases Nat.eq_zero_or_pos w with rfl | hw
  · simp only [Nat.cast_zero, gfixed_zero_bits]; exact isApFixed_zero s 0 i
  · rw [isApFixed_iff hw, gfixed_pos_bits x _ i R S (by omega : (w : ℤ) ≠ 0)]
    obtain ⟨n, hn⟩ := rndMap_int R (x * p2 (w - i))
    obtain ⟨m, hm, h1, h2⟩ := satMap_int S s hw n
    rw [hn, hm]
    exact ⟨m, rfl, h1, h2⟩

/-- C01, width zero: the output is 0. -/
theorem C01_zero_bits (x : ℚ) (k i : ℤ) (R : Rnd) (S : Sat) : gfixedQuantizer x k 0 i R S = 0 :=
  gfixed_zero_bits x k i R S

/-- C01 for a constructed layer: storing normalises zero-width elements, the output stays in the
type that was requested. -/
theorem C01_layer_output_in_type (x : ℚ) (s : Bool) (w : ℕ) (i : ℤ) (R : Rnd) (S : Sat) :
    IsApFixed s w i ((KBI.init s.toInt w i).apply R S x) := by
  unfold KBI.init KBI.apply
  split_ifs with h
  · simp only [h, gfixed_zero_bits]; exact isApFixed_zero s w i
  · exact C01_output_in_type x s w i R S

-- a non-trivial instance: 13.7 wraps to -2.5 in ap_fixed<5,4> (TRN, WRAP)
example : gfixedQuantizer (137 / 10) (true.toInt) (5 : ℕ) 4 .TRN .WRAP = -5 / 2 := by decide +kernel
example : IsApFixed true 5 4 (-5 / 2) := ⟨BitVec.ofInt 5 (-5), by decide +kernel⟩

/-! ### C02 -/

/-- C02: a value of the type is returned unchanged (exception: the lowest value under `SAT_SYM`). -/
theorem C02_representable_unchanged (y : ℚ) (s : Bool) (w : ℕ) (i : ℤ) (R : Rnd) (S : Sat)
    (hy : IsApFixed s w i y) (hs : S = .SAT_SYM → s = true → w ≠ 0 → y ≠ -(2 : ℚ) ^ (i - 1)) :
    gfixedQuantizer y s.toInt w i R S = y := by
  rcases Nat.eq_zero_or_pos w with rfl | hw
  · rw [isApFixed_zero_width] at hy
    simp only [Nat.cast_zero, gfixed_zero_bits, hy]
  · rw [isApFixed_iff hw] at hy
    obtain ⟨n, rfl, h1, h2⟩ := hy
    rw [gfixed_pos_bits _ _ i R S (by omega : (w : ℤ) ≠ 0)]
    have : (n : ℚ) * p2 (i - w) * p2 (w - i) = n := by
      rw [mul_assoc, ← p2_add]; simp [p2_zero]
    rw [this, rndMap_fix, satMap_of_range S s hw h1 h2]
    intro hS hst hc
    apply hs hS hst (by omega)
    rw [hc, hst]
    have e : (2 : ℚ) ^ (i - 1) = p2 ((w - 1 : ℕ) : ℤ) * p2 (i - w) := by
      rw [← p2_add]; unfold p2; congr 1; omega
    rw [e, p2_natCast]; simp [lowB]

/-- C02, the exception: under `SAT_SYM` the lowest value of a signed type moves up one step. -/
theorem C02_sat_sym_lowest (w : ℕ) (hw : 2 ≤ w) (i : ℤ) (R : Rnd) :
    IsApFixed true w i (-(2 : ℚ) ^ (i - 1)) ∧
    gfixedQuantizer (-(2 : ℚ) ^ (i - 1)) 1 w i R .SAT_SYM = -(2 : ℚ) ^ (i - 1) + (2 : ℚ) ^ (i - w) := by
  have e : -(2 : ℚ) ^ (i - 1) = (lowB true w : ℚ) * p2 (i - w) := by
    have : (2 : ℚ) ^ (i - 1) = p2 ((w - 1 : ℕ) : ℤ) * p2 (i - w) := by
      rw [← p2_add]; unfold p2; congr 1; omega
    rw [this, p2_natCast]; simp [lowB]
  have hb := highB_sub_lowB true (w := w) (by omega)
  have hl : highB true w + 1 = - lowB true w := by simp [highB, lowB]
  have hn := highB_nonneg true w
  constructor
  · rw [isApFixed_iff (by omega)]
    exact ⟨_, e, le_rfl, by omega⟩
  · rw [gfixed_pos_bits _ _ i R _ (by omega : (w : ℤ) ≠ 0), e]
    have : (lowB true w : ℚ) * p2 (i - w) * p2 (w - i) = lowB true w := by
      rw [mul_assoc, ← p2_add]; simp [p2_zero]
    rw [this, rndMap_fix]
    show satSYM _ (true.toInt) w * _ = _
    rw [satSYM_int true (by omega)]
    have : (min (max (lowB true w) (-(highB true w) * true.toInt)) (highB true w)) = lowB true w + 1 := by
      simp only [toInt_true]; omega
    rw [this]; unfold p2; push_cast; ring

/-- C02: quantizing twice equals quantizing once, for every mode (including `SAT_SYM`). -/
theorem C02_idempotent (x : ℚ) (s : Bool) (w : ℕ) (i : ℤ) (R R' : Rnd) (S : Sat) :
    gfixedQuantizer (gfixedQuantizer x s.toInt w i R S) s.toInt w i R' S
      = gfixedQuantizer x s.toInt w i R S := by
  apply C02_representable_unchanged _ s w i R' S (C01_output_in_type x s w i R S)
  rintro rfl rfl hw0 hc
  have hw : 1 ≤ w := by omega
  rw [gfixed_pos_bits x _ i R _ (by omega : (w : ℤ) ≠ 0)] at hc
  obtain ⟨n, hn⟩ := rndMap_int R (x * p2 (w - i))
  rw [hn] at hc
  change satSYM n (true.toInt) w * _ = _ at hc
  rw [satSYM_int true hw] at hc
  have e : -(2 : ℚ) ^ (i - 1) = (lowB true w : ℚ) * p2 (i - w) := by
    have : (2 : ℚ) ^ (i - 1) = p2 ((w - 1 : ℕ) : ℤ) * p2 (i - w) := by
      rw [← p2_add]; unfold p2; congr 1; omega
    rw [this, p2_natCast]; simp [lowB]
  rw [e] at hc
  have hc' := mul_right_cancel₀ (p2_ne _) hc
  have hc'' : min (max n (-(highB true w) * true.toInt)) (highB true w) = lowB true w := by
    exact_mod_cast hc'
  have hl : highB true w + 1 = - lowB true w := by simp [highB, lowB]
  have hn := highB_nonneg true w
  simp only [toInt_true] at hc''
  omega

example : IsApFixed true 5 4 (-5 / 2) ∧
    gfixedQuantizer (-5 / 2) (true.toInt) (5 : ℕ) 4 .RND_CONV .WRAP_SM = -5 / 2 :=
  ⟨⟨BitVec.ofInt 5 (-5), by decide +kernel⟩, by decide +kernel⟩

/-! ### C03 -/

/-- C03: `WRAP` keeps the low `w` bits of the rounded scaled input, read in two's complement. -/
theorem C03_wrap_is_bit_truncation (x : ℚ) (s : Bool) (w : ℕ) (i : ℤ) (R : Rnd) (n : ℤ)
    (hn : rndMap R (x * (2 : ℚ) ^ ((w : ℤ) - i)) = n) :
    gfixedQuantizer x s.toInt w i R .WRAP = (truncateBits s w n : ℚ) * (2 : ℚ) ^ (i - w) := by
  rcases Nat.eq_zero_or_pos w with rfl | hw
  · simp only [Nat.cast_zero, gfixed_zero_bits]
    have h := (isApFixed_zero_width s i ((truncateBits s 0 n : ℚ) * (2 : ℚ) ^ (i - ((0 : ℕ) : ℤ)))).mp
      ⟨BitVec.ofInt 0 n, rfl⟩
    simpa using h.symm
  · rw [gfixed_pos_bits _ _ i R _ (by omega : (w : ℤ) ≠ 0)]
    have : rndMap R (x * p2 (w - i)) = n := hn
    rw [this]
    show satWRAP n s.toInt w * _ = _
    rw [satWRAP_int s hw]; rfl

/-- C03 for the default rounding `TRN`, with no auxiliary variable. -/
theorem C03_wrap_trn (x : ℚ) (s : Bool) (w : ℕ) (i : ℤ) :
    gfixedQuantizer x s.toInt w i .TRN .WRAP
      = (truncateBits s w ⌊x * (2 : ℚ) ^ ((w : ℤ) - i)⌋ : ℚ) * (2 : ℚ) ^ (i - w) :=
  C03_wrap_is_bit_truncation x s w i .TRN _ rfl

example : rndMap .TRN ((137 / 10) * (2 : ℚ) ^ (((5 : ℕ) : ℤ) - 4)) = (27 : ℤ) ∧
    truncateBits true 5 27 = -5 := by decide +kernel

/-! ### C04 -/

/-- C04: `SAT` returns the value of the type nearest to the rounded input. -/
theorem C04_sat_nearest (x : ℚ) (s : Bool) (w : ℕ) (hw : 1 ≤ w) (i : ℤ) (R : Rnd) (y : ℚ)
    (hy : IsApFixed s w i y) :
    |rndMap R (x * (2 : ℚ) ^ ((w : ℤ) - i)) * (2 : ℚ) ^ (i - w) - gfixedQuantizer x s.toInt w i R .SAT|
      ≤ |rndMap R (x * (2 : ℚ) ^ ((w : ℤ) - i)) * (2 : ℚ) ^ (i - w) - y| := by
  rw [isApFixed_iff hw] at hy
  obtain ⟨m, rfl, h1, h2⟩ := hy
  rw [gfixed_pos_bits _ _ i R _ (by omega : (w : ℤ) ≠ 0)]
  change |rndMap R (x * p2 (w - i)) * p2 (i - w) - satSAT _ _ _ * _|
    ≤ |rndMap R (x * p2 (w - i)) * p2 (i - w) - _|
  obtain ⟨n, hn⟩ := rndMap_int R (x * p2 (w - i))
  rw [hn, satSAT_int s hw, ← sub_mul, ← sub_mul, abs_mul, abs_mul]
  apply mul_le_mul_of_nonneg_right _ (abs_nonneg _)
  have : |n - min (max n (lowB s w)) (highB s w)| ≤ |n - m| := by
    have := highB_sub_lowB s hw
    have : (0 : ℤ) < 2 ^ w := by positivity
    rcases le_total n (lowB s w) with h | h
    · rw [max_eq_right h, min_eq_left (by omega)]
      rw [abs_of_nonpos (by omega), abs_of_nonpos (by omega)]; omega
    · rw [max_eq_left h]
      rcases le_total n (highB s w) with h' | h'
      · rw [min_eq_left h']; simp
      · rw [min_eq_right h', abs_of_nonneg (by omega), abs_of_nonneg (by omega)]; omega
  exact_mod_cast this

/-- C04: what `SAT` and `SAT_SYM` return on overflow, and that `SAT_SYM` is symmetric. -/
theorem C04_saturation_values (x : ℚ) (s : Bool) (w : ℕ) (hw : 1 ≤ w) (i : ℤ) (R : Rnd) :
    let v := rndMap R (x * (2 : ℚ) ^ ((w : ℤ) - i)) * (2 : ℚ) ^ (i - w)
    let hi := (2 : ℚ) ^ (i - s.toInt) - (2 : ℚ) ^ (i - w)
    (hi ≤ v → gfixedQuantizer x s.toInt w i R .SAT = hi ∧ gfixedQuantizer x s.toInt w i R .SAT_SYM = hi) ∧
    (v ≤ -(s.toInt * (2 : ℚ) ^ (i - 1)) →
      gfixedQuantizer x s.toInt w i R .SAT = -(s.toInt * (2 : ℚ) ^ (i - 1))) ∧
    (v ≤ -(s.toInt * hi) → gfixedQuantizer x s.toInt w i R .SAT_SYM = -(s.toInt * hi)) := by
  have hp := p2_pos (i - w)
  have hh := code_high s hw
  have hl := code_low s hw
  obtain ⟨n, hn⟩ := rndMap_int R (x * p2 (w - i))
  have ehi : (2 : ℚ) ^ (i - s.toInt) - (2 : ℚ) ^ (i - w) = (highB s w : ℚ) * p2 (i - w) := by
    have e2 : (2 : ℚ) ^ (i - s.toInt) = p2 ((w : ℤ) - s.toInt) * p2 (i - w) := by
      rw [← p2_add]; unfold p2; congr 1; ring
    rw [e2, ← hh]; unfold p2; ring
  have elo : -(s.toInt * (2 : ℚ) ^ (i - 1)) = (lowB s w : ℚ) * p2 (i - w) := by
    cases s
    · simp [Bool.toInt, lowB]
    · have : (2 : ℚ) ^ (i - 1) = p2 ((w - 1 : ℕ) : ℤ) * p2 (i - w) := by
        rw [← p2_add]; unfold p2; congr 1; omega
      rw [this, p2_natCast]; simp [lowB, Bool.toInt]
  have esy : -((s.toInt : ℚ) * ((highB s w : ℚ) * p2 (i - w)))
      = ((-(highB s w) * s.toInt : ℤ) : ℚ) * p2 (i - w) := by push_cast; ring
  have hwid := highB_sub_lowB s hw
  have hpw : (0 : ℤ) < 2 ^ w := by positivity
  have hln := lowB_nonpos s w
  have hhn := highB_nonneg s w
  have hsl : -(highB s w) * s.toInt ≤ highB s w := by cases s <;> simp [Bool.toInt] <;> omega
  simp only
  rw [ehi, elo, esy]
  rw [gfixed_pos_bits _ _ i R _ (by omega : (w : ℤ) ≠ 0), gfixed_pos_bits _ _ i R _ (by omega : (w : ℤ) ≠ 0)]
  change (_ ≤ rndMap R (x * p2 (w - i)) * p2 (i - w) → satSAT _ _ _ * _ = _ ∧ satSYM _ _ _ * _ = _)
    ∧ (rndMap R (x * p2 (w - i)) * p2 (i - w) ≤ _ → satSAT _ _ _ * _ = _)
    ∧ (rndMap R (x * p2 (w - i)) * p2 (i - w) ≤ _ → satSYM _ _ _ * _ = _)
  rw [hn, satSAT_int s hw, satSYM_int s hw]
  refine ⟨fun h => ?_, fun h => ?_, fun h => ?_⟩
  · have h1 : (highB s w : ℚ) ≤ n := le_of_mul_le_mul_right h hp
    have h1' : highB s w ≤ n := by exact_mod_cast h1
    rw [min_eq_right (by omega), min_eq_right (by omega)]; exact ⟨rfl, rfl⟩
  · have h1 : (n : ℚ) ≤ lowB s w := le_of_mul_le_mul_right h hp
    have h1' : n ≤ lowB s w := by exact_mod_cast h1
    rw [max_eq_right h1', min_eq_left (by omega)]
  · have h1 := le_of_mul_le_mul_right h hp
    have h1' : n ≤ -(highB s w) * s.toInt := by exact_mod_cast h1
    rw [max_eq_right h1', min_eq_left hsl]

/-- C04: saturating quantizers are monotone, for every rounding mode. -/
theorem C04_saturating_monotone (x y : ℚ) (hxy : x ≤ y) (s : Bool) (w : ℕ) (i : ℤ) (R : Rnd) (S : Sat)
    (hS : S = .SAT ∨ S = .SAT_SYM) :
    gfixedQuantizer x s.toInt w i R S ≤ gfixedQuantizer y s.toInt w i R S := by
  rcases Nat.eq_zero_or_pos w with rfl | hw
  · simp only [Nat.cast_zero, gfixed_zero_bits]; exact le_rfl
  · rw [gfixed_pos_bits _ _ i R _ (by omega : (w : ℤ) ≠ 0), gfixed_pos_bits _ _ i R _ (by omega : (w : ℤ) ≠ 0)]
    apply mul_le_mul_of_nonneg_right _ (p2_pos _).le
    have hm := rndMap_mono R (mul_le_mul_of_nonneg_right hxy (p2_pos (w - i)).le)
    rcases hS with rfl | rfl
    · exact max_le_max_right _ (min_le_min_right _ hm)
    · exact max_le_max_right _ (min_le_min_right _ hm)

example : gfixedQuantizer 100 (true.toInt) (4 : ℕ) 3 .RND .SAT = 7 / 2 ∧
    gfixedQuantizer (-100) (true.toInt) (4 : ℕ) 3 .RND .SAT_SYM = -7 / 2 := by decide +kernel

/-! ### C05 -/

/-- C05: `SAT_ZERO` returns the rounded value if it is in the type and 0 otherwise. -/
theorem C05_sat_zero (x : ℚ) (s : Bool) (w : ℕ) (i : ℤ) (R : Rnd) :
    let v := rndMap R (x * (2 : ℚ) ^ ((w : ℤ) - i)) * (2 : ℚ) ^ (i - w)
    (IsApFixed s w i v → gfixedQuantizer x s.toInt w i R .SAT_ZERO = v) ∧
    (¬ IsApFixed s w i v → gfixedQuantizer x s.toInt w i R .SAT_ZERO = 0) := by
  simp only
  rcases Nat.eq_zero_or_pos w with rfl | hw
  · rw [isApFixed_zero_width]
    simp only [Nat.cast_zero, gfixed_zero_bits]
    exact ⟨fun h => h.symm, fun _ => trivial⟩
  · obtain ⟨n, hn⟩ := rndMap_int R (x * p2 (w - i))
    rw [isApFixed_iff hw, gfixed_pos_bits _ _ i R _ (by omega : (w : ℤ) ≠ 0)]
    change ((∃ m : ℤ, rndMap R (x * p2 (w - i)) * p2 (i - w) = _ ∧ _) → satZERO _ _ _ * _ = rndMap R (x * p2 (w - i)) * p2 (i - w))
      ∧ (¬(∃ m : ℤ, rndMap R (x * p2 (w - i)) * p2 (i - w) = _ ∧ _) → satZERO _ _ _ * _ = _)
    rw [hn, satZERO_int s hw]
    constructor
    · rintro ⟨m, hm, h1, h2⟩
      have := mul_right_cancel₀ (p2_ne _) hm
      have : n = m := by exact_mod_cast this
      subst this
      rw [if_pos ⟨h2, h1⟩]
    · intro hno
      rw [if_neg, Int.cast_zero, zero_mul]
      rintro ⟨h2, h1⟩
      exact hno ⟨n, rfl, h1, h2⟩

example : IsApFixed false 3 3 (rndMap .RND (5 * (2 : ℚ) ^ (((3 : ℕ) : ℤ) - 3)) * (2 : ℚ) ^ ((3 : ℤ) - (3 : ℕ))) :=
  ⟨5#3, by decide +kernel⟩
example : ¬ IsApFixed false 3 3 (rndMap .RND (8 * (2 : ℚ) ^ (((3 : ℕ) : ℤ) - 3)) * (2 : ℚ) ^ ((3 : ℤ) - (3 : ℕ))) := by
  rintro ⟨v, hv⟩
  revert v; decide +kernel

/-! ### C06 -/

/-- The grid function of `WRAP_SM`: integers in units of the LSB, no scaling (`i = w`), `TRN`. -/
theorem C06_wrap_sm_reflects (s : Bool) (w : ℕ) (hw : 1 ≤ w) (i : ℤ) (n : ℤ) :
    let lsb := (2 : ℚ) ^ (i - w)
    let g := fun m : ℤ => gfixedQuantizer (m * lsb) s.toInt w i .TRN .WRAP_SM
    -- identity on values of the type
    (IsApFixed s w i (n * lsb) → g n = n * lsb) ∧
    -- consecutive inputs: outputs at most one step apart
    |g (n + 1) - g n| ≤ lsb ∧
    -- periodic with period 2^(w+1) steps
    g (n + 2 ^ (w + 1)) = g n ∧
    -- mirror image about the upper end of the range: max+1+n and max-n give the same output
    g ((2 ^ (w - s.toNat) - 1) + 1 + n) = g ((2 ^ (w - s.toNat) - 1) - n) := by
  have htop : (2 : ℤ) ^ (w - s.toNat) - 1 = highB s w := by cases s <;> simp [highB]
  rw [htop]
  have hg : ∀ m : ℤ, gfixedQuantizer (m * (2 : ℚ) ^ (i - w)) s.toInt w i .TRN .WRAP_SM
      = (reflectB s w m : ℚ) * p2 (i - w) := by
    intro m
    rw [gfixed_pos_bits _ _ i _ _ (by omega : (w : ℤ) ≠ 0)]
    have : (m : ℚ) * (2 : ℚ) ^ (i - w) * p2 (w - i) = m := by
      change (m : ℚ) * p2 (i - w) * _ = _
      rw [mul_assoc, ← p2_add]; simp [p2_zero]
    rw [this, rndMap_fix]
    show satWRAPSM _ _ _ * _ = _
    rw [satWRAPSM_int s hw]
  have hwid := highB_sub_lowB s hw
  have hpw : (0 : ℤ) < 2 ^ w := by positivity
  simp only [hg]
  refine ⟨fun h => ?_, ?_, ?_, ?_⟩
  · rw [isApFixed_iff hw] at h
    obtain ⟨m, hm, h1, h2⟩ := h
    have := mul_right_cancel₀ (p2_ne _) hm
    have : n = m := by exact_mod_cast this
    subst this
    rw [reflectB_of_range hw h1 h2]; rfl
  · rw [← sub_mul, abs_mul, abs_of_pos (p2_pos _)]
    have : |reflectB s w (n + 1) - reflectB s w n| ≤ 1 := by
      unfold reflectB
      simp only
      have e : n + 1 - highB s w - 1 = (n - highB s w - 1) + 1 := by ring
      rw [e]
      generalize n - highB s w - 1 = t
      have a1 := Int.emod_nonneg t (b := 2 ^ w * 2) (by positivity)
      have a2 := Int.emod_lt_of_pos t (b := 2 ^ w * 2) (by positivity)
      have hstep : (t + 1) % (2 ^ w * 2) = if t % (2 ^ w * 2) + 1 = 2 ^ w * 2 then 0 else t % (2 ^ w * 2) + 1 := by
        rw [← Int.emod_add_emod]
        split_ifs with h
        · rw [h]; simp
        · apply Int.emod_eq_of_lt <;> omega
      rw [hstep, abs_le]
      split_ifs <;> constructor <;> omega
    have h' : |(reflectB s w (n + 1) : ℚ) - reflectB s w n| ≤ 1 := by exact_mod_cast this
    have := p2_pos (i - w)
    unfold p2 at *
    nlinarith
  · congr 2
    unfold reflectB
    simp only
    have e : n + 2 ^ (w + 1) - highB s w - 1 = (n - highB s w - 1) + 2 ^ w * 2 := by rw [pow_succ]; ring
    rw [e, Int.add_emod_right]
  · congr 2
    unfold reflectB
    simp only
    have e1 : highB s w + 1 + n - highB s w - 1 = n := by ring
    have e2 : highB s w - n - highB s w - 1 = -n - 1 := by ring
    rw [e1, e2]
    have a1 := Int.emod_nonneg n (b := 2 ^ w * 2) (by positivity)
    have a2 := Int.emod_lt_of_pos n (b := 2 ^ w * 2) (by positivity)
    have : (-n - 1) % (2 ^ w * 2) = 2 ^ w * 2 - 1 - n % (2 ^ w * 2) := by
      have h := Int.emod_emod_of_dvd n (dvd_refl ((2 : ℤ) ^ w * 2))
      have h2 : -n - 1 = (2 ^ w * 2 - 1 - n % (2 ^ w * 2)) + (2 ^ w * 2) * (-(n / (2 ^ w * 2)) - 1) := by
        have := Int.emod_add_mul_ediv n (2 ^ w * 2)
        linarith
      rw [h2, Int.add_mul_emod_self_left]
      apply Int.emod_eq_of_lt <;> omega
    rw [this]
    split_ifs <;> omega

example : gfixedQuantizer 4 (true.toInt) (3 : ℕ) 3 .TRN .WRAP_SM = 3 ∧
    gfixedQuantizer 5 (true.toInt) (3 : ℕ) 3 .TRN .WRAP_SM = 2 := by decide +kernel

/-! ### C07 -/

/-- C07: the truncating modes. -/
theorem C07_trn (x : ℚ) : ∃ n : ℤ, rndMap .TRN x = n ∧ (n : ℚ) ≤ x ∧ x < n + 1 :=
  ⟨flr x, rfl, flr_le x, lt_flr_add_one x⟩

/-- C07: `TRN_ZERO` never moves away from zero and never changes sign. -/
theorem C07_trn_zero (x : ℚ) :
    ∃ n : ℤ, rndMap .TRN_ZERO x = n ∧ |(n : ℚ)| ≤ |x| ∧ |x| < |(n : ℚ)| + 1 ∧ 0 ≤ (n : ℚ) * x := by
  rcases lt_or_ge x 0 with hx | hx
  · have h0 : 0 ≤ flr (-x) := le_flr.mpr (by push_cast; linarith)
    have h0' : (0 : ℚ) ≤ flr (-x) := by exact_mod_cast h0
    refine ⟨-flr (-x), ?_, ?_, ?_, ?_⟩
    · show rndTRNZERO x = _
      rw [rndTRNZERO_of_neg hx]; push_cast; ring
    · push_cast; rw [abs_neg, abs_of_nonneg h0', abs_of_neg hx]; exact flr_le _
    · push_cast; rw [abs_neg, abs_of_nonneg h0', abs_of_neg hx]; exact lt_flr_add_one _
    · push_cast; nlinarith
  · have h0 : 0 ≤ flr x := le_flr.mpr (by push_cast; linarith)
    have h0' : (0 : ℚ) ≤ flr x := by exact_mod_cast h0
    refine ⟨flr x, rndTRNZERO_of_nonneg hx, ?_, ?_, ?_⟩
    · rw [abs_of_nonneg h0', abs_of_nonneg hx]; exact flr_le _
    · rw [abs_of_nonneg h0', abs_of_nonneg hx]; exact lt_flr_add_one _
    · positivity

/-- tie rules of the nearest modes -/
def TieRule : Rnd → ℚ → ℤ → Prop
  | .RND, x, n => x < n                          -- up
  | .RND_MIN_INF, x, n => (n : ℚ) < x            -- down
  | .RND_ZERO, x, n => |(n : ℚ)| < |x|           -- toward zero
  | .RND_INF, x, n => |x| < |(n : ℚ)|            -- away from zero
  | .RND_CONV, _, n => Even n                    -- to even
  | _, _, _ => True

theorem tie_RND {x : ℚ} (h : IsTie x) : x < rndRND x := by
  obtain ⟨m, rfl⟩ := h
  unfold rndRND
  have : flr ((m : ℚ) + 1 / 2 + 1 / 2) = m + 1 := by
    have : (m : ℚ) + 1 / 2 + 1 / 2 = ((m + 1 : ℤ) : ℚ) := by push_cast; ring
    rw [this, flr_int]
  rw [this]; push_cast; linarith

theorem tie_MININF {x : ℚ} (h : IsTie x) : rndMININF x < x := by
  obtain ⟨m, rfl⟩ := h
  unfold rndMININF
  have : flr (-((m : ℚ) + 1 / 2) + 1 / 2) = -m := by
    have : -((m : ℚ) + 1 / 2) + 1 / 2 = ((-m : ℤ) : ℚ) := by push_cast; ring
    rw [this, flr_int]
  rw [this]; push_cast; linarith

theorem tie_ne_int {x : ℚ} (h : IsTie x) (n : ℤ) : x ≠ n := by
  obtain ⟨m, rfl⟩ := h
  intro hc
  have : (2 * m + 1 : ℚ) = 2 * n := by linarith
  have : (2 * m + 1 : ℤ) = 2 * n := by exact_mod_cast this
  omega

/-- C07: the five nearest modes return a nearest integer and follow their tie rule. -/
theorem C07_nearest (R : Rnd) (hR : R ≠ .TRN ∧ R ≠ .TRN_ZERO) (x : ℚ) :
    ∃ n : ℤ, rndMap R x = n ∧ IsNearest x n ∧ (IsTie x → TieRule R x n) := by
  obtain ⟨n, hn⟩ := rndMap_int R x
  have hnear : R.nearest = true := by cases R <;> simp_all [Rnd.nearest]
  have hb := rndMap_nearest hnear x
  rw [hn] at hb
  refine ⟨n, hn, isNearest_of_abs_le_half hb, fun ht => ?_⟩
  have hne := tie_ne_int ht
  cases R
  · simp at hR
  · have := tie_RND ht
    change rndRND x = n at hn
    rwa [hn] at this
  · show Even n
    obtain ⟨m, rfl⟩ := ht
    change ((tfRound _ : ℤ) : ℚ) = n at hn
    have hn' : tfRound ((m : ℚ) + 1 / 2) = n := by exact_mod_cast hn
    rw [← hn']
    unfold tfRound
    have hf : ⌊(m : ℚ) + 1 / 2⌋ = m := flr_int_half m
    simp only [hf]
    have e : (m : ℚ) + 1 / 2 - m = 1 / 2 := by ring
    rw [e]
    simp only [lt_irrefl, if_false]
    split_ifs with h
    · exact Int.even_iff.mpr h
    · exact Int.even_iff.mpr (by omega)
  · simp at hR
  · show |(n : ℚ)| < |x|
    change rndZERO x = n at hn
    rcases lt_or_ge x 0 with hx | hx
    · rw [rndZERO_of_neg hx] at hn
      have := tie_RND ht
      rw [hn] at this
      have h0 : n ≤ 0 := by
        have : (n : ℚ) < 1 := by rw [abs_le] at hb; linarith [hb.1]
        have : n < 1 := by exact_mod_cast this
        omega
      have h0' : (n : ℚ) ≤ 0 := by exact_mod_cast h0
      rw [abs_of_neg hx, abs_of_nonpos h0']; linarith
    · rw [rndZERO_of_nonneg hx] at hn
      have := tie_MININF ht
      rw [hn] at this
      have h0 : 0 ≤ n := by
        have : (-1 : ℚ) < n := by rw [abs_le] at hb; linarith [hb.2]
        have : -1 < n := by exact_mod_cast this
        omega
      have h0' : (0 : ℚ) ≤ n := by exact_mod_cast h0
      rw [abs_of_nonneg hx, abs_of_nonneg h0']; linarith
  · have := tie_MININF ht
    change rndMININF x = n at hn
    rwa [hn] at this
  · show |x| < |(n : ℚ)|
    change rndINF x = n at hn
    rcases lt_or_ge x 0 with hx | hx
    · rw [rndINF_of_neg hx] at hn
      have := tie_MININF ht
      rw [hn] at this
      rw [abs_of_neg hx, abs_of_neg (by linarith)]; linarith
    · rw [rndINF_of_nonneg hx] at hn
      have := tie_RND ht
      rw [hn] at this
      rw [abs_of_nonneg hx, abs_of_nonneg (by linarith)]; linarith

-- ties exist and the modes differ on them
example : IsTie (-5 / 2) := ⟨-3, by norm_num⟩
example : rndMap .RND (-5 / 2) = -2 ∧ rndMap .RND_MIN_INF (-5 / 2) = -3 ∧ rndMap .RND_ZERO (-5 / 2) = -2 ∧
    rndMap .RND_INF (-5 / 2) = -3 ∧ rndMap .RND_CONV (-5 / 2) = -2 ∧ rndMap .RND_CONV (7 / 2) = 4 ∧
    rndMap .RND (7 / 2) = 4 ∧ rndMap .TRN_ZERO (-5 / 2) = -2 := by decide +kernel

/-- C07: the in-code comment on `RND` ("ties to even") is not what it computes. -/
theorem C07_RND_comment_wrong : IsTie (5 / 2) ∧ rndMap .RND (5 / 2) = 3 ∧ ¬ Even (3 : ℤ) :=
  ⟨⟨2, by norm_num⟩, by decide +kernel, by decide⟩

/-! ### C08 -/

/-- C08: without overflow all overflow modes (bar `SAT_SYM`) agree, returning the rounded value. -/
theorem C08_no_overflow_same (x : ℚ) (s : Bool) (w : ℕ) (i : ℤ) (R : Rnd) (S : Sat) (hS : S ≠ .SAT_SYM)
    (h : IsApFixed s w i (rndMap R (x * (2 : ℚ) ^ ((w : ℤ) - i)) * (2 : ℚ) ^ (i - w))) :
    gfixedQuantizer x s.toInt w i R S
      = rndMap R (x * (2 : ℚ) ^ ((w : ℤ) - i)) * (2 : ℚ) ^ (i - w) := by
  rcases Nat.eq_zero_or_pos w with rfl | hw
  · rw [isApFixed_zero_width] at h
    rw [h]; simp only [Nat.cast_zero, gfixed_zero_bits]
  · rw [gfixed_pos_bits _ _ i R _ (by omega : (w : ℤ) ≠ 0)]
    rw [isApFixed_iff hw] at h
    obtain ⟨m, hm, h1, h2⟩ := h
    have := mul_right_cancel₀ (p2_ne _) hm
    change rndMap R (x * p2 (w - i)) = m at this
    change _ = rndMap R (x * p2 (w - i)) * p2 (i - w)
    rw [this, satMap_of_range S s hw h1 h2 (fun h => absurd h hS)]

/-- C08: the error without overflow. -/
theorem C08_error_bound (x : ℚ) (s : Bool) (w : ℕ) (i : ℤ) (R : Rnd) (S : Sat) (hS : S ≠ .SAT_SYM)
    (h : IsApFixed s w i (rndMap R (x * (2 : ℚ) ^ ((w : ℤ) - i)) * (2 : ℚ) ^ (i - w))) :
    (R = .TRN → 0 ≤ x - gfixedQuantizer x s.toInt w i R S ∧
        x - gfixedQuantizer x s.toInt w i R S < (2 : ℚ) ^ (i - w)) ∧
    (R = .TRN_ZERO → |x - gfixedQuantizer x s.toInt w i R S| < (2 : ℚ) ^ (i - w)) ∧
    (R ≠ .TRN → R ≠ .TRN_ZERO → |x - gfixedQuantizer x s.toInt w i R S| ≤ (2 : ℚ) ^ (i - w) / 2) := by
  rw [C08_no_overflow_same x s w i R S hS h]
  change (_ → 0 ≤ x - rndMap R (x * p2 (w - i)) * p2 (i - w) ∧ x - rndMap R (x * p2 (w - i)) * p2 (i - w) < p2 (i - w))
    ∧ (_ → |x - rndMap R (x * p2 (w - i)) * p2 (i - w)| < p2 (i - w))
    ∧ (_ → _ → |x - rndMap R (x * p2 (w - i)) * p2 (i - w)| ≤ p2 (i - w) / 2)
  have hp := p2_pos (i - w)
  have e : x = (x * p2 (w - i)) * p2 (i - w) := by
    rw [mul_assoc, ← p2_add]; simp [p2_zero]
  have e2 : x - rndMap R (x * p2 (w - i)) * p2 (i - w)
      = (x * p2 (w - i) - rndMap R (x * p2 (w - i))) * p2 (i - w) := by
    conv_lhs => rw [e]
    rw [← sub_mul, ← e]
  rw [e2]
  generalize x * p2 (w - i) = z
  refine ⟨?_, ?_, ?_⟩
  · rintro rfl
    have := flr_le z
    have := lt_flr_add_one z
    change 0 ≤ (z - flr z) * _ ∧ (z - flr z) * _ < _
    constructor <;> nlinarith
  · rintro rfl
    obtain ⟨n, hn, h1, h2, h3⟩ := C07_trn_zero z
    rw [hn, abs_mul, abs_of_pos hp]
    have : |z - n| < 1 := by
      rw [abs_lt]
      rcases lt_or_ge z 0 with hz | hz
      · have hn0 : (n : ℚ) ≤ 0 := by
          by_contra hc; push Not at hc; nlinarith
        rw [abs_of_neg hz, abs_of_nonpos hn0] at h1 h2
        constructor <;> linarith
      · rw [abs_of_nonneg hz] at h1 h2
        have : (n : ℚ) ≤ |(n : ℚ)| := le_abs_self _
        rcases hz.eq_or_lt with rfl | hz'
        · have : |(n : ℚ)| = 0 := le_antisymm h1 (abs_nonneg _)
          rw [abs_eq_zero] at this; rw [this]; norm_num
        · have hn0 : 0 ≤ (n : ℚ) := by
            by_contra hc; push Not at hc; nlinarith
          rw [abs_of_nonneg hn0] at h1 h2
          constructor <;> linarith
    nlinarith
  · intro h1 h2
    have hnear : R.nearest = true := by cases R <;> first | rfl | exact absurd rfl h1 | exact absurd rfl h2
    have := rndMap_nearest hnear z
    rw [abs_mul, abs_of_pos hp]
    nlinarith

example : IsApFixed true 6 3 (rndMap .RND ((23 / 10) * (2 : ℚ) ^ (((6 : ℕ) : ℤ) - 3)) * (2 : ℚ) ^ ((3 : ℤ) - (6 : ℕ))) :=
  ⟨18#6, by decide +kernel⟩

/-- C08: `aggressive=True` (WRAP) and `aggressive=False` (SAT) differ on overflow. -/
theorem C08_differ_on_overflow :
    gfixedQuantizer 4 (true.toInt) (3 : ℕ) 3 .TRN .WRAP = -4 ∧
    gfixedQuantizer 4 (true.toInt) (3 : ℕ) 3 .TRN .SAT = 3 := by decide +kernel

/-! ### C09 -/

theorem le_listMax {l : List ℤ} {a : ℤ} (h : a ∈ l) : a ≤ listMax l := by
  induction l with
  | nil => simp at h
  | cons b t ih =>
    cases t with
    | nil => simp at h; simp [listMax, h]
    | cons c t =>
      simp only [List.mem_cons] at h
      unfold listMax
      rcases h with rfl | h
      · exact le_max_left _ _
      · exact le_max_of_le_right (ih (by simpa using h))

theorem listMax_mem {l : List ℤ} (h : l ≠ []) : listMax l ∈ l := by
  induction l with
  | nil => simp at h
  | cons b t ih =>
    cases t with
    | nil => simp [listMax]
    | cons c t =>
      unfold listMax
      rcases max_choice b (listMax (c :: t)) with e | e
      · rw [e]; simp
      · rw [e]; exact List.mem_cons_of_mem _ (ih (by simp))

/-- widening a fixed-point type keeps its values -/
theorem isKif_mono {k k' i i' f f' : ℤ} {y : ℚ} (h : IsKif k i f y) (h0 : 0 ≤ k) (hk : k ≤ k') (hi : i ≤ i')
    (hf : f ≤ f') : IsKif k' i' f' y := by
  obtain ⟨⟨n, hn⟩, h1, h2⟩ := h
  have hpi : (2 : ℚ) ^ i ≤ (2 : ℚ) ^ i' := p2_le_p2 hi
  have hp : (0 : ℚ) < (2 : ℚ) ^ i := p2_pos i
  have hk' : (k : ℚ) ≤ k' := by exact_mod_cast hk
  have hk0 : (0 : ℚ) ≤ k := by exact_mod_cast h0
  refine ⟨?_, ?_, lt_of_lt_of_le h2 hpi⟩
  · obtain ⟨m, hm, -⟩ := p2_int_of_nonneg (a := f' - f) (by omega)
    refine ⟨n * m, ?_⟩
    rw [hn]; push_cast
    rw [← hm, mul_assoc]; congr 1
    change p2 _ = _ * p2 _
    rw [← p2_add]; congr 1; ring
  · have : (k : ℚ) * (2 : ℚ) ^ i ≤ k' * (2 : ℚ) ^ i' := mul_le_mul hk' hpi hp.le (by linarith)
    linarith

/-- C09: the single reported type contains every element's outputs, for any input. -/
theorem C09_result_t_covers (qs : List KBI) (q : KBI) (hq : q ∈ qs)
    (hk : q.keepNegative = 0 ∨ q.keepNegative = 1) (hb : 0 ≤ q.bits) (R : Rnd) (S : Sat) (x : ℚ) :
    IsKif (resultTKif qs).1 (resultTKif qs).2.1 (resultTKif qs).2.2 (q.apply R S x) := by
  obtain ⟨s, hs⟩ : ∃ s : Bool, q.keepNegative = s.toInt := by
    rcases hk with h | h
    · exact ⟨false, h⟩
    · exact ⟨true, h⟩
  obtain ⟨w, hw⟩ := Int.eq_ofNat_of_zero_le hb
  have h := C01_output_in_type x s w q.integers R S
  rw [spec_kif_iff_apfixed] at h
  unfold KBI.apply
  rw [hs, hw]
  refine isKif_mono h (by rcases hk with h | h <;> omega) ?_ ?_ ?_
  · rw [← hs]; exact le_listMax (List.mem_map.mpr ⟨q, hq, rfl⟩)
  · rw [← hs]; exact le_listMax (List.mem_map.mpr ⟨q, hq, rfl⟩)
  · rw [← hw]; exact le_listMax (List.mem_map.mpr ⟨q, hq, rfl⟩)

/-- C09: `heterogeneous` is False exactly when all elements store the same format. -/
theorem C09_heterogeneous_iff (qs : List KBI) :
    heterogeneous qs = false ↔ ∀ q ∈ qs, ∀ q' ∈ qs, q = q' := by
  unfold heterogeneous
  simp only
  constructor
  · intro h
    split_ifs at h with h1 h2 h3
    · simp only [List.all_eq_true, beq_iff_eq] at h1 h2 h3
      intro q hq q' hq'
      obtain ⟨a, b, c⟩ := q
      obtain ⟨a', b', c'⟩ := q'
      have := h1 _ hq; have := h1 _ hq'
      have := h2 _ hq; have := h2 _ hq'
      have := h3 _ hq; have := h3 _ hq'
      simp_all
  · intro h
    have key : ∀ (g : KBI → ℤ), (qs.all fun q => g q == listMax (qs.map g)) = true := by
      intro g
      rw [List.all_eq_true]
      intro q hq
      have hne : qs.map g ≠ [] := by
        intro hc; rw [List.map_eq_nil_iff] at hc; subst hc; simp at hq
      obtain ⟨q', hq', e⟩ := List.mem_map.mp (listMax_mem hne)
      rw [← e, h q hq q' hq']; simp
    rw [if_neg (by rw [key]; simp), if_neg (by rw [key]; simp), if_neg (by rw [key]; simp)]

example : heterogeneous [⟨1, 5, 3⟩, ⟨0, 4, 2⟩] = true ∧ resultTKif [⟨1, 5, 3⟩, ⟨0, 4, 2⟩] = (1, 2, 2) := by
  decide

end HGQ
