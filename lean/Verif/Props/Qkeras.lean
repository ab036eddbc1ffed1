import Verif.Model.Qkeras
import Verif.Spec.QKeras
import Verif.Lemmas.Rounding

/-!
C60: proxy layers for QKeras layers compute what the QKeras layers compute.
-/

namespace HGQ.Qkeras

open Spec

theorem tfRound_isRoundEven (x : ℚ) : IsRoundEven x (tfRound x) := by
  refine ⟨isNearest_of_abs_le_half (tfRound_bounds x), ?_⟩
  rintro ⟨m, rfl⟩
  have hfl : ⌊(m : ℚ) + 1 / 2⌋ = m := flr_int_half m
  unfold tfRound
  simp only [hfl]
  have : (m : ℚ) + 1 / 2 - m = 1 / 2 := by ring
  rw [this, if_neg (by norm_num), if_neg (by norm_num)]
  split_ifs with h
  · exact Int.even_iff.mpr h
  · exact Int.even_iff.mpr (by omega)

/-- rounding to even is a function -/
theorem isRoundEven_unique {x : ℚ} {n m : ℤ} (hn : IsRoundEven x n) (hm : IsRoundEven x m) : n = m := by
  have h1 := abs_le.mp (abs_le_half_of_isNearest hn.1)
  have h2 := abs_le.mp (abs_le_half_of_isNearest hm.1)
  by_contra hne
  have hd1 : (n : ℚ) - m ≤ 1 := by linarith
  have hd2 : (m : ℚ) - n ≤ 1 := by linarith
  have hd1 : n - m ≤ 1 := by exact_mod_cast hd1
  have hd2 : m - n ≤ 1 := by exact_mod_cast hd2
  rcases lt_or_gt_of_ne hne with h | h
  · have he : m = n + 1 := by omega
    subst he
    push_cast at h2
    have ht : IsTie x := ⟨n, by linarith⟩
    have e1 := Int.even_iff.mp (hn.2 ht)
    have e2 := Int.even_iff.mp (hm.2 ht)
    omega
  · have he : n = m + 1 := by omega
    subst he
    push_cast at h1
    have ht : IsTie x := ⟨m, by linarith⟩
    have e1 := Int.even_iff.mp (hn.2 ht)
    have e2 := Int.even_iff.mp (hm.2 ht)
    omega

/-- QKeras' quantizers are functions -/
theorem quantizedBits_unique {b i : ℤ} {k s : Bool} {x y z : ℚ} (hy : QuantizedBits b i k s x y) (hz : QuantizedBits b i k s x z) : y = z := by
  unfold QuantizedBits at hy hz
  dsimp only at hy hz
  split_ifs at hy hz
  all_goals first
    | (obtain ⟨n, hn, rfl⟩ := hy; obtain ⟨m, hm, rfl⟩ := hz; rw [isRoundEven_unique hn hm])
    | rw [hy, hz]

/-- clipping commutes with scaling -/
theorem clip_scale (n lo hi m mi : ℚ) (hm : 0 < m) :
    mi * min (max (n / m) (lo / m)) (hi / m) = min (max n lo) hi * (mi / m) := by
  rw [max_div_div_right hm.le, min_div_div_right hm.le]
  ring

theorem fixed_apply (k b i : ℤ) (hb : b ≠ 0) (R : Rnd) (S : Sat) (x : ℚ) :
    run [mkFixed k b i R S] x = satMap S (rndMap R (x * p2 (b - i))) k b * p2 (i - b) := by
  show (KBI.init k b i).apply R S x = _
  unfold KBI.init
  rw [if_neg hb]
  exact gfixed_pos_bits x k i R S hb

theorem scale_eq (x : ℚ) (b i k : ℤ) : x * (2 : ℚ) ^ (b - k) / (2 : ℚ) ^ i = x * p2 (b - (i + k)) := by
  have h := p2_add (b - (i + k)) i
  have hi := p2_ne i
  unfold p2 at *
  rw [show b - (i + k) + i = b - k by ring] at h
  rw [h]
  field_simp

theorem unscale_eq (b i k : ℤ) : (2 : ℚ) ^ i / (2 : ℚ) ^ (b - k) = p2 (i + k - b) := by
  unfold p2
  rw [← zpow_sub₀ (by norm_num)]
  congr 1; ring

/-- **C60**, `quantized_bits`: when saturation is asked for, or the quantizer is symmetric, the layer computes the quantizer for every
width, integer width, sign setting and input. -/
theorem C60_quantized_bits (b i : ℤ) (kn sym : Bool) (hb : kn.toInt < b) (S : Sat) (hS : sym = true ∨ S = .SAT) :
    ∃ ls, quantizerToLayers (.bits b i kn sym.toInt (.num 1)) S = .ok ls ∧ ∀ x, QuantizedBits b i kn sym x (run ls x) := by
  have hk : (if kn = true then (1 : ℤ) else 0) = kn.toInt := by cases kn <;> rfl
  have hkq : (if kn = true then (1 : ℚ) else 0) = kn.toInt := by cases kn <;> norm_num [Bool.toInt]
  have hb0 : b ≠ 0 := by cases kn <;> simp [Bool.toInt] at hb <;> omega
  refine ⟨[mkFixed kn.toInt b (i + kn.toInt) .RND_CONV (if sym then .SAT_SYM else .SAT)], ?_, ?_⟩
  · unfold quantizerToLayers
    rcases hS with rfl | rfl
    · simp [Bool.toInt]
    · cases sym <;> simp [Bool.toInt]
  · intro x
    unfold QuantizedBits
    dsimp only
    rw [hk, if_pos (by omega), hkq]
    refine ⟨_, tfRound_isRoundEven _, ?_⟩
    rw [fixed_apply _ _ _ hb0, scale_eq]
    have hm : (0 : ℚ) < 2 ^ (b - kn.toInt) := zpow2_pos _
    have hm1 : (1 : ℚ) ≤ 2 ^ (b - kn.toInt) := one_le_zpow₀ (by norm_num) (by omega)
    set m := (2 : ℚ) ^ (b - kn.toInt) with hmd
    set n := tfRound (x * p2 (b - (i + kn.toInt))) with hn
    have e1 : (1 : ℚ) - 1 / m = (m - 1) / m := by field_simp
    have e2 : ∀ s : ℚ, ((kn.toInt : ℤ) : ℚ) * (-1 + s / m) = (-(m - s) * (kn.toInt : ℤ)) / m := by intro s; field_simp; ring
    rw [e1, e2, clip_scale _ _ _ _ _ hm, unscale_eq]
    congr 1
    cases sym
    · show satSAT (n : ℚ) _ _ = _
      unfold satSAT
      simp only [p2, ← hmd]
      rw [clipByValue_eq (by cases kn <;> simp [Bool.toInt] <;> linarith [hm1])]
      norm_num
    · show satSYM (n : ℚ) _ _ = _
      unfold satSYM
      simp only [p2, ← hmd]
      rw [clipByValue_eq (by cases kn <;> simp [Bool.toInt] <;> linarith [hm1])]
      norm_num

/-- **C60** with the default overflow mode WRAP: only for inputs between the least and the greatest value of the type. -/
theorem C60_quantized_bits_wrap_partial (b i : ℤ) (kn : Bool) (hb : kn.toInt < b) (S : Sat) (hSS : S ≠ .SAT_SYM) (x : ℚ)
    (h1 : -(kn.toInt * (2 : ℚ) ^ i) ≤ x) (h2 : x ≤ (2 : ℚ) ^ i - (2 : ℚ) ^ (i + kn.toInt - b)) :
    ∃ ls, quantizerToLayers (.bits b i kn 0 (.num 1)) S = .ok ls ∧ QuantizedBits b i kn false x (run ls x) := by
  have hb0 : b ≠ 0 := by cases kn <;> simp [Bool.toInt] at hb <;> omega
  obtain ⟨ls, hls, hq⟩ := C60_quantized_bits b i kn false hb .SAT (Or.inr rfl)
  refine ⟨[mkFixed kn.toInt b (i + kn.toInt) .RND_CONV S], by simp [quantizerToLayers], ?_⟩
  have hls' : ls = [mkFixed kn.toInt b (i + kn.toInt) .RND_CONV .SAT] := by
    simp [quantizerToLayers, Bool.toInt] at hls
    cases kn <;> simpa [Bool.toInt] using hls.symm
  have hq := hq x
  rw [hls', fixed_apply _ _ _ hb0] at hq
  rw [fixed_apply _ _ _ hb0]
  obtain ⟨w, rfl⟩ : ∃ w : ℕ, b = w := ⟨b.toNat, by cases kn <;> simp [Bool.toInt] at hb <;> omega⟩
  have hw : 1 ≤ w := by omega
  have hr : rndMap .RND_CONV (x * p2 (w - (i + kn.toInt))) = (tfRound (x * p2 (w - (i + kn.toInt))) : ℤ) := rfl
  rw [hr] at hq ⊢
  set f : ℤ := w - (i + kn.toInt) with hf
  have hp := p2_pos f
  have eI : (2 : ℚ) ^ i * p2 f = highB kn w + 1 := by
    have := code_high kn hw
    have e : (2 : ℚ) ^ i * p2 f = p2 ((w : ℤ) - kn.toInt) := by
      rw [show (2 : ℚ) ^ i = p2 i from rfl, ← p2_add, hf]; congr 1; ring
    rw [e]; linarith
  have eL : (2 : ℚ) ^ (i + kn.toInt - w) * p2 f = 1 := by
    rw [show (2 : ℚ) ^ (i + kn.toInt - w) = p2 (-f) by unfold p2; congr 1; omega, p2_neg_mul]
  have hlo : (lowB kn w : ℚ) ≤ x * p2 f := by
    have := code_low kn hw
    have h := mul_le_mul_of_nonneg_right h1 hp.le
    have e : -((kn.toInt : ℚ) * (2 : ℚ) ^ i) * p2 f = lowB kn w := by
      rw [← this, ← eI]; ring
    rw [e] at h; exact h
  have hhi : x * p2 f ≤ highB kn w := by
    have h := mul_le_mul_of_nonneg_right h2 hp.le
    rw [sub_mul, eI, eL] at h
    linarith
  have hb := abs_le.mp (tfRound_bounds (x * p2 f))
  have hn1 : lowB kn w ≤ tfRound (x * p2 f) := by
    by_contra hc
    push Not at hc
    have : (tfRound (x * p2 f) : ℚ) + 1 ≤ lowB kn w := by exact_mod_cast hc
    linarith
  have hn2 : tfRound (x * p2 f) ≤ highB kn w := by
    by_contra hc
    push Not at hc
    have : (highB kn w : ℚ) + 1 ≤ tfRound (x * p2 f) := by exact_mod_cast hc
    linarith
  rw [satMap_of_range S kn hw hn1 hn2 (fun h => absurd h hSS)]
  rw [satMap_of_range .SAT kn hw hn1 hn2 (by simp)] at hq
  exact hq

/-- With WRAP every format has inputs on which the layer differs from the quantizer: at 2^integer the quantizer saturates, the layer
wraps to the least value. -/
theorem C60_wrap_differs (b i : ℤ) (kn : Bool) (hb : kn.toInt < b) :
    ∃ ls, quantizerToLayers (.bits b i kn 0 (.num 1)) .WRAP = .ok ls ∧ run ls ((2 : ℚ) ^ i) = -(kn.toInt * (2 : ℚ) ^ i) ∧
      ¬ QuantizedBits b i kn false ((2 : ℚ) ^ i) (run ls ((2 : ℚ) ^ i)) := by
  have hb0 : b ≠ 0 := by cases kn <;> simp [Bool.toInt] at hb <;> omega
  refine ⟨[mkFixed kn.toInt b (i + kn.toInt) .RND_CONV .WRAP], by simp [quantizerToLayers], ?_⟩
  obtain ⟨w, rfl⟩ : ∃ w : ℕ, b = w := ⟨b.toNat, by cases kn <;> simp [Bool.toInt] at hb <;> omega⟩
  have hw : 1 ≤ w := by omega
  have eI : (2 : ℚ) ^ i * p2 (w - (i + kn.toInt)) = ((highB kn w + 1 : ℤ) : ℚ) := by
    have := code_high kn hw
    have e : (2 : ℚ) ^ i * p2 (w - (i + kn.toInt)) = p2 ((w : ℤ) - kn.toInt) := by
      rw [show (2 : ℚ) ^ i = p2 i from rfl, ← p2_add]; congr 1; ring
    rw [e]; push_cast; linarith
  have hval : run [mkFixed kn.toInt w (i + kn.toInt) .RND_CONV .WRAP] ((2 : ℚ) ^ i) = -(kn.toInt * (2 : ℚ) ^ i) := by
    rw [fixed_apply _ _ _ hb0, eI, rndMap_fix]
    show satWRAP _ _ _ * _ = _
    rw [satWRAP_int kn hw]
    have ht : Spec.truncateBits kn w (highB kn w + 1) = lowB kn w := by
      refine (eq_truncateBits hw (le_refl _) ?_ ?_).symm
      · have := lowB_nonpos kn w; have := highB_nonneg kn w; omega
      · have := highB_sub_lowB kn hw
        exact ⟨1, by omega⟩
    rw [ht, ← code_low kn hw]
    have e2 : p2 (i + kn.toInt - w) * p2 (w - (i + kn.toInt)) = 1 := by
      rw [← p2_add, show i + kn.toInt - w + (w - (i + kn.toInt)) = 0 by ring, p2_zero]
    have hne := p2_ne (w - (i + kn.toInt))
    apply mul_right_cancel₀ hne
    rw [mul_assoc, e2]
    have h3 : -(((kn.toInt : ℤ) : ℚ) * 2 ^ i) * p2 (w - (i + kn.toInt)) = -((kn.toInt : ℤ) : ℚ) * ((2 : ℚ) ^ i * p2 (w - (i + kn.toInt))) := by ring
    rw [h3, eI]
    push_cast; ring
  refine ⟨hval, ?_⟩
  rw [hval]
  obtain ⟨ls, -, hq⟩ := C60_quantized_bits w i kn false hb .SAT (Or.inr rfl)
  intro hbad
  -- the quantizer is positive at 2^i
  have hk : (if kn = true then (1 : ℤ) else 0) = kn.toInt := by cases kn <;> rfl
  unfold QuantizedBits at hbad
  dsimp only at hbad
  rw [hk, if_pos (by omega)] at hbad
  obtain ⟨n, hn, hy⟩ := hbad
  have hm : (2 : ℚ) ≤ 2 ^ ((w : ℤ) - kn.toInt) := by
    calc (2 : ℚ) = p2 1 := by rw [p2_one]
      _ ≤ p2 ((w : ℤ) - kn.toInt) := p2_le_p2 (by omega)
  set m := (2 : ℚ) ^ ((w : ℤ) - kn.toInt) with hmd
  have hmi := zpow2_pos i
  have hx : (2 : ℚ) ^ i * m / 2 ^ i = m := by field_simp
  rw [hx] at hn
  have hnm : (m - 1 : ℚ) ≤ n := by
    have := abs_le.mp (abs_le_half_of_isNearest hn.1)
    linarith
  have hc : (0 : ℚ) < min (max ((n : ℚ) / m) ((if kn = true then (1 : ℚ) else 0) * (-1 + (if false = true then (1 : ℚ) else 0) / m))) (1 - 1 / m) := by
    apply lt_min
    · apply lt_max_of_lt_left
      apply div_pos <;> linarith
    · have : 1 / m ≤ 1 / 2 := by
        apply one_div_le_one_div_of_le <;> linarith
      linarith
  have hpos := mul_pos hmi hc
  rw [← hy] at hpos
  have : (0 : ℚ) ≤ (kn.toInt : ℤ) * (2 : ℚ) ^ i := by
    apply mul_nonneg
    · cases kn <;> norm_num [Bool.toInt]
    · exact hmi.le
  linarith

/-- With one bit that is the sign, QKeras' quantizer is ±1 while the layer's type has only non-positive values: it differs at every
non-negative input (the code warns). -/
theorem C60_one_bit_differs (i : ℤ) (S : Sat) (x : ℚ) (hx : 0 ≤ x) :
    ∃ ls, quantizerToLayers (.bits 1 i true 0 (.num 1)) S = .ok ls ∧ ¬ QuantizedBits 1 i true false x (run ls x) := by
  refine ⟨[mkFixed 1 1 (i + 1) .RND_CONV S], by simp [quantizerToLayers, Bool.toInt], ?_⟩
  rw [fixed_apply _ _ _ (by norm_num)]
  obtain ⟨n, hn⟩ := rndMap_int .RND_CONV (x * p2 (1 - (i + 1)))
  obtain ⟨m, hm, h1, h2⟩ := satMap_int S true (w := 1) (le_refl _) n
  have hm' : satMap S (n : ℚ) 1 1 = m := hm
  rw [hn, hm']
  unfold QuantizedBits
  simp only [highB, lowB] at h1 h2
  norm_num at h1 h2 ⊢
  rw [if_pos hx]
  intro h
  have hp := p2_pos (i + 1 - 1)
  have : (m : ℚ) ≤ 0 := by exact_mod_cast h2
  have e : i + 1 - 1 = i := by ring
  rw [e] at hp
  nlinarith

/-- **C60**, `quantized_relu`: for every width, integer width and input. -/
theorem C60_quantized_relu (b i : ℤ) (hb : 0 < b) (S : Sat) :
    ∃ ls, quantizerToLayers (.relu b i 0 false) S = .ok ls ∧ ∀ x, QuantizedRelu b i x (run ls x) := by
  refine ⟨_, rfl, ?_⟩
  intro x
  have hrun : run [.relu, mkFixed 0 b i .RND_CONV .SAT] x = run [mkFixed 0 b i .RND_CONV .SAT] (max x 0) := rfl
  rw [hrun, fixed_apply _ _ _ hb.ne']
  unfold QuantizedRelu
  dsimp only
  refine ⟨_, tfRound_isRoundEven _, ?_⟩
  have hs := scale_eq x b i 0
  simp only [sub_zero, add_zero] at hs
  rw [hs]
  have hm : (0 : ℚ) < 2 ^ b := zpow2_pos _
  have hm1 : (1 : ℚ) ≤ 2 ^ b := one_le_zpow₀ (by norm_num) (by omega)
  set m := (2 : ℚ) ^ b with hmd
  have e1 : (1 : ℚ) - 1 / m = (m - 1) / m := by field_simp
  have e2 : (0 : ℚ) = 0 / m := by simp
  have hu := unscale_eq b i 0
  simp only [sub_zero, add_zero] at hu
  rw [e1]
  conv_rhs => rw [show max ((tfRound (x * p2 (b - i)) : ℚ) / m) 0 = max ((tfRound (x * p2 (b - i)) : ℚ) / m) (0 / m) by simp]
  rw [clip_scale _ _ _ _ _ hm, hu]
  congr 1
  show satSAT (rndCONV _) _ _ = _
  unfold satSAT rndCONV
  simp only [p2, sub_zero, ← hmd]
  rw [clipByValue_eq (by simp; linarith [hm1])]
  have hp := p2_pos (b - i)
  rcases le_total 0 x with hx | hx
  · rw [max_eq_left hx]; norm_num [p2]
  · rw [max_eq_right hx]
    have h1 : tfRound (0 * 2 ^ (b - i)) = 0 := by rw [zero_mul]; exact tfRound_int 0
    rw [h1]
    have h2 : (tfRound (x * 2 ^ (b - i)) : ℚ) ≤ 0 := by
      have hle : x * p2 (b - i) ≤ 0 := mul_nonpos_of_nonpos_of_nonneg hx hp.le
      have hb := abs_le.mp (tfRound_bounds (x * p2 (b - i)))
      have : (tfRound (x * p2 (b - i)) : ℚ) < 1 := by linarith
      have : tfRound (x * p2 (b - i)) < 1 := by exact_mod_cast this
      have : tfRound (x * p2 (b - i)) ≤ 0 := by omega
      exact_mod_cast this
    rw [max_eq_right h2]
    norm_num

/-- The slope of a leaky `quantized_relu` and its sigmoid are ignored: the layers are those of the plain one and their output is never
negative. -/
theorem C60_relu_slope_ignored (b i : ℤ) (hb : 0 < b) (slope : ℚ) (sig : Bool) (S : Sat) :
    ∃ ls, quantizerToLayers (.relu b i slope sig) S = .ok ls ∧ ∀ x, QuantizedRelu b i x (run ls x) ∧ 0 ≤ run ls x := by
  obtain ⟨ls, hls, hq⟩ := C60_quantized_relu b i hb S
  refine ⟨ls, hls, fun x => ⟨hq x, ?_⟩⟩
  obtain ⟨n, -, hy⟩ := hq x
  rw [hy]
  apply mul_nonneg (zpow2_pos i).le
  apply le_min (le_max_right _ _)
  have : (1 : ℚ) ≤ 2 ^ b := by
    calc (1 : ℚ) = p2 0 := by rw [p2_zero]
      _ ≤ p2 b := p2_le_p2 hb.le
  rw [sub_nonneg, div_le_one (by linarith)]
  exact this

/-- **C60**, `binary` with unit scale: the layer computes it for every input … -/
theorem C60_binary_partial (alpha : Alpha) (S : Sat) :
    ∃ ls, quantizerToLayers (.binary false alpha) S = .ok ls ∧ ∀ x, run ls x = qkBinary 1 x := by
  refine ⟨_, rfl, fun x => ?_⟩
  have h : run [.qbinary, mkFixed 1 2 2 .RND .WRAP] x = run [mkFixed 1 2 2 .RND .WRAP] (if 0 ≤ x then 1 else -1) := rfl
  rw [h]
  unfold qkBinary
  split_ifs
  · decide +kernel
  · decide +kernel

/-- … but the scale is ignored: with any other it differs at every input. -/
theorem C60_binary_scale_ignored (a : ℚ) (ha : a ≠ 1) (S : Sat) (x : ℚ) :
    ∃ ls, quantizerToLayers (.binary false (.num a)) S = .ok ls ∧ run ls x ≠ qkBinary a x := by
  obtain ⟨ls, hls, h⟩ := C60_binary_partial (.num a) S
  refine ⟨ls, hls, ?_⟩
  rw [h]
  unfold qkBinary
  split_ifs
  · exact fun h => ha h.symm
  · intro h; apply ha; linarith

/-- Which quantizers are refused, and how: `quantized_bits` unless its scale is the number 1 (in particular its default), unusual
`symmetric` values, `binary(use_01=True)`, and all ternary and power-of-two quantizers. -/
theorem C60_refused (q : Quant) (S : Sat) :
    (∃ e, quantizerToLayers q S = .error e) ↔
      (∃ b i kn sym alpha, q = .bits b i kn sym alpha ∧ (alpha ≠ .num 1 ∨ (sym ≠ 0 ∧ sym ≠ 1))) ∨
      (∃ alpha, q = .binary true alpha) ∨ q = .ternary ∨ q = .po2 := by
  cases q with
  | bits b i kn sym alpha =>
    unfold quantizerToLayers
    by_cases h1 : alpha = .num 1
    · by_cases h2 : sym ≠ 0 ∧ sym ≠ 1
      · simp [h1, h2]
      · simp only [h1, ne_eq, not_true_eq_false, if_false, if_neg h2]
        constructor
        · rintro ⟨e, he⟩; cases he
        · rintro (⟨b', i', k', s', a', he, h | h⟩ | ⟨_, h⟩ | h | h)
          · cases he; exact absurd rfl h
          · cases he; exact absurd h h2
          · cases h
          · cases h
          · cases h
    · simp [h1]
  | relu b i s g => simp [quantizerToLayers]
  | binary u a => cases u <;> simp [quantizerToLayers]
  | ternary => simp [quantizerToLayers]
  | po2 => simp [quantizerToLayers]
  | linear => simp [quantizerToLayers]
  | other b f => simp [quantizerToLayers]

/-- **C60**, layers: when the conversion of a layer that is not an activation layer succeeds, the proxy computes the Keras operation on the
quantized weights followed by the layers of its activation. -/
theorem C60_layer (L : QLayer) (S : Sat) (hL : L.isAct = false) (g : List ℚ → List ℚ) (h : toProxy L S = .ok g) (x : List ℚ) :
    (L.act = none ∧ g x = L.op (L.kernel.map (List.map (L.kernelQ.getD id))) (L.bias.map (List.map (L.biasQ.getD id))) x) ∨
    (∃ a ls, L.act = some a ∧ quantizerToLayers a S = .ok ls ∧
      g x = (L.op (L.kernel.map (List.map (L.kernelQ.getD id))) (L.bias.map (List.map (L.biasQ.getD id))) x).map (run ls)) := by
  unfold toProxy toKerasLayer at h
  rw [hL] at h
  cases hk : L.known with
  | false => simp [hk, bind, Except.bind] at h
  | true =>
    cases hc : L.confOk with
    | error e => simp [hk, hc, bind, Except.bind] at h
    | ok u =>
      cases ha : L.act with
      | none =>
        simp [hk, hc, ha, bind, Except.bind, pure, Except.pure] at h
        left
        refine ⟨rfl, ?_⟩
        rw [← h]
        rfl
      | some a =>
        right
        cases hq : quantizerToLayers a S with
        | error e => simp [hk, hc, ha, hq, bind, Except.bind] at h
        | ok ls =>
          simp [hk, hc, ha, hq, bind, Except.bind, pure, Except.pure] at h
          refine ⟨a, ls, rfl, hq, ?_⟩
          rw [← h]
          rfl

/-- Activation layers: the proxy applies the quantizer's layers; a `QActivation` of something that is not a QKeras quantizer is refused. -/
theorem C60_activation (L : QLayer) (S : Sat) (hL : L.isAct = true) (a : Quant) (ha : L.act = some a) :
    (∀ ls, L.known = true → a ≠ .linear → (∀ f, a ≠ .other false f) → quantizerToLayers a S = .ok ls →
      ∃ g, toProxy L S = .ok g ∧ ∀ x, g x = x.map (run ls)) ∧
    (a = .linear ∨ (∃ f, a = .other false f) → ∃ e, toProxy L S = .error e) := by
  constructor
  · intro ls hk h1 h2 hq
    have hqk : a.isQk = true := by
      cases a with
      | linear => exact absurd rfl h1
      | other b f => cases b with
        | false => exact absurd rfl (h2 f)
        | true => rfl
      | _ => rfl
    refine ⟨fun x => x.map (run ls), ?_, fun x => rfl⟩
    unfold toProxy toKerasLayer
    simp [hL, ha, hk, hqk, hq, bind, Except.bind, pure, Except.pure]
  · intro h
    have hqk : a.isQk = false := by
      rcases h with rfl | ⟨f, rfl⟩ <;> rfl
    unfold toProxy toKerasLayer
    cases hk : L.known <;> cases hc : L.confOk <;> simp [hL, ha, hqk, bind, Except.bind]

theorem dropKey_filter {α : Type} (k : String) (ws : List String) (conf : List (String × α)) (c : List (String × α)) (h : dropKey k ws conf = .ok c) :
    c = if ws.any (contains k) then conf.filter fun e => !(e.1 == k) else conf := by
  induction ws generalizing conf with
  | nil => cases h; rfl
  | cons w ws ih =>
    unfold dropKey at h
    by_cases hc : contains k w = true
    · rw [if_pos hc] at h
      split_ifs at h
      have h' := ih _ h
      rw [List.any_cons, hc, Bool.true_or, if_pos rfl, h']
      split_ifs
      · simp [List.filter_filter]
      · rfl
    · rw [if_neg hc] at h
      have h' := ih _ h
      rw [List.any_cons, Bool.eq_false_of_not_eq_true hc, Bool.false_or]
      exact h'

theorem dropKeys_filter {α : Type} (ks : List String) (conf c : List (String × α)) (h : dropKeys ks conf = .ok c) :
    c = conf.filter fun e => !(ks.any fun k => blacklist.any (contains k) && e.1 == k) := by
  induction ks generalizing conf with
  | nil => cases h; simp
  | cons k ks ih =>
    unfold dropKeys at h
    cases hd : dropKey k blacklist conf with
    | error e => simp [hd, bind, Except.bind] at h
    | ok c1 =>
      simp only [hd, bind, Except.bind] at h
      have h1 := dropKey_filter k _ conf c1 hd
      have h2 := ih c1 h
      rw [h2, h1]
      split_ifs with hb
      · rw [List.filter_filter]
        congr 1
        funext e
        simp [hb, Bool.and_comm]
      · congr 1
        funext e
        simp [Bool.eq_false_of_not_eq_true hb]

theorem dropKey_error {α : Type} (k : String) (ws : List String) (conf : List (String × α)) (hmem : k ∈ conf.map (·.1)) :
    (∃ e, dropKey k ws conf = .error e) ↔ 2 ≤ (ws.filter (contains k)).length := by
  induction ws with
  | nil => simp [dropKey]
  | cons w ws ih =>
    unfold dropKey
    by_cases hc : contains k w = true
    · have ha : conf.any (fun e => e.1 == k) = true := by
        obtain ⟨e, he, rfl⟩ := List.mem_map.mp hmem
        exact List.any_eq_true.mpr ⟨e, he, by simp⟩
      rw [if_pos hc, if_pos ha, List.filter_cons_of_pos hc]
      -- after the deletion the key is gone
      have gone : ∀ ws : List String, (∃ e, dropKey k ws (conf.filter fun e => !(e.1 == k)) = .error e) ↔ 1 ≤ (ws.filter (contains k)).length := by
        intro ws
        induction ws with
        | nil => simp [dropKey]
        | cons v vs ihv =>
          unfold dropKey
          by_cases hv : contains k v = true
          · have : ((conf.filter fun e => !(e.1 == k)).any fun e => e.1 == k) = false := by
              rw [List.any_eq_false]
              intro e he
              have := (List.mem_filter.mp he).2
              simpa using this
            rw [if_pos hv, if_neg (by rw [this]; exact Bool.false_ne_true), List.filter_cons_of_pos hv]
            simp
          · rw [if_neg hv, List.filter_cons_of_neg hv]
            exact ihv
      rw [gone, List.length_cons]
      omega
    · rw [if_neg hc, List.filter_cons_of_neg hc]
      exact ih

theorem contains_iff (k w : String) : contains k w = true ↔ w.toList <:+: k.toList := by
  unfold contains
  exact @decide_eq_true_iff _ (_)

/-- Specification: the words naming the entries of a configuration that concern quantization. -/
def _root_.Spec.quantizationWords : List String := ["quantize", "kernel_range", "bias_range", "constraint", "activation", "initializer"]

/-- **C60**, configuration: the Keras layer gets exactly the entries, unchanged and in order, whose names contain none of the words … -/
theorem C60_config {α : Type} (conf c : List (String × α)) (h : filterConf conf = .ok c) :
    c.Sublist conf ∧ (∀ e, e ∈ c ↔ e ∈ conf ∧ ∀ w ∈ Spec.quantizationWords, ¬ w.toList <:+: e.1.toList) ∧
      ((conf.map (·.1)).Nodup → (c.map (·.1)).Nodup) := by
  rw [show Spec.quantizationWords = blacklist from by decide +kernel]
  unfold filterConf at h
  have hc := dropKeys_filter _ _ _ h
  have hsub : c.Sublist conf := by rw [hc]; exact List.filter_sublist
  refine ⟨hsub, ?_, fun hn => hn.sublist (hsub.map _)⟩
  intro e
  rw [hc, List.mem_filter]
  refine and_congr_right fun he => ?_
  rw [Bool.not_eq_true', ← Bool.not_eq_true, List.any_eq_true]
  constructor
  · intro hno w hw hcw
    apply hno
    refine ⟨e.1, List.mem_map.mpr ⟨e, he, rfl⟩, ?_⟩
    rw [Bool.and_eq_true]
    exact ⟨List.any_eq_true.mpr ⟨w, hw, (contains_iff _ _).mpr hcw⟩, by simp⟩
  · rintro hno ⟨k, -, hk⟩
    rw [Bool.and_eq_true, List.any_eq_true] at hk
    obtain ⟨⟨w, hw, hcw⟩, he'⟩ := hk
    rw [← beq_iff_eq.mp he'] at hcw
    exact hno w hw ((contains_iff _ _).mp hcw)

theorem two_words (k : String) (bl : List String) (hbl : bl.Nodup) : 2 ≤ (bl.filter (contains k)).length ↔
    ∃ v ∈ bl, ∃ w ∈ bl, v ≠ w ∧ v.toList <:+: k.toList ∧ w.toList <:+: k.toList := by
  have hn : (bl.filter (contains k)).Nodup := List.Nodup.filter _ hbl
  have hmem : ∀ v, v ∈ bl.filter (contains k) ↔ v ∈ bl ∧ v.toList <:+: k.toList := by
    intro v; rw [List.mem_filter, contains_iff]
  generalize bl.filter (contains k) = fl at hn hmem
  constructor
  · intro h
    match fl, h with
    | v :: w :: l, _ =>
      obtain ⟨h1, h2⟩ := (hmem v).mp (by simp)
      obtain ⟨h3, h4⟩ := (hmem w).mp (by simp)
      exact ⟨v, h1, w, h3, by rintro rfl; simp at hn, h2, h4⟩
  · rintro ⟨v, hv, w, hw, hne, h1, h2⟩
    have hv' := (hmem v).mpr ⟨hv, h1⟩
    have hw' := (hmem w).mpr ⟨hw, h2⟩
    match fl, hv', hw' with
    | [u], hv', hw' =>
      simp at hv' hw'
      exact absurd (hv'.trans hw'.symm) hne
    | u :: u' :: l, _, _ => simp

/-- … and the conversion fails exactly when some name contains two of the words. -/
theorem C60_config_refused {α : Type} (conf : List (String × α)) (hnd : (conf.map (·.1)).Nodup) :
    (∃ e, filterConf conf = .error e) ↔
      ∃ k ∈ conf.map (·.1), ∃ v ∈ Spec.quantizationWords, ∃ w ∈ Spec.quantizationWords, v ≠ w ∧ v.toList <:+: k.toList ∧ w.toList <:+: k.toList := by
  rw [show Spec.quantizationWords = blacklist from by decide +kernel]
  have two := fun k => two_words k blacklist (by decide +kernel)
  unfold filterConf
  suffices hs : ∀ (ks : List String) (c : List (String × α)), ks.Nodup → (∀ k ∈ ks, k ∈ c.map (·.1)) →
      ((∃ e, dropKeys ks c = .error e) ↔ ∃ k ∈ ks, 2 ≤ (blacklist.filter (contains k)).length) by
    rw [hs _ _ hnd (fun k hk => hk)]
    exact exists_congr fun k => and_congr_right fun _ => two k
  intro ks
  induction ks with
  | nil => intro c _ _; simp [dropKeys]
  | cons k ks ih =>
    intro c hn hsub
    have hk := hsub k (by simp)
    unfold dropKeys
    cases hd : dropKey k blacklist c with
    | error e =>
      simp only [bind, Except.bind]
      constructor
      · intro _; exact ⟨k, by simp, (dropKey_error k _ c hk).mp ⟨e, hd⟩⟩
      · intro _; exact ⟨e, rfl⟩
    | ok c1 =>
      simp only [bind, Except.bind]
      have hc1 := dropKey_filter k _ c c1 hd
      have hnk : k ∉ ks := (List.nodup_cons.mp hn).1
      rw [ih c1 (List.nodup_cons.mp hn).2 ?_]
      · constructor
        · rintro ⟨k', hk', h⟩; exact ⟨k', by simp [hk'], h⟩
        · rintro ⟨k', hk', h⟩
          rcases List.mem_cons.mp hk' with rfl | hk'
          · have := (dropKey_error k' _ c hk).mpr h
            rw [hd] at this
            obtain ⟨e, he⟩ := this
            cases he
          · exact ⟨k', hk', h⟩
      · intro k' hk'
        have h := hsub k' (by simp [hk'])
        rw [hc1]
        split_ifs
        · obtain ⟨e, he, rfl⟩ := List.mem_map.mp h
          refine List.mem_map.mpr ⟨e, List.mem_filter.mpr ⟨he, ?_⟩, rfl⟩
          have : e.1 ≠ k := by rintro rfl; exact hnk hk'
          simpa using this
        · exact h

example : filterConf [("name", 1), ("units", 2), ("kernel_quantizer", 3), ("activation", 4), ("use_bias", 5)] = .ok [("name", 1), ("units", 2), ("use_bias", 5)] ∧
    filterConf [("name", 1), ("activation_quantizer", 2)] = .error "KeyError" := by
  constructor <;> decide +kernel

/-- `quantized_bits(4, 1)`, `-1.3 → -1.25` and saturation at 1.75; the wrapped layer instead gives -2 at 2. -/
example : quantizerToLayers (.bits 4 1 true 0 (.num 1)) .SAT = .ok [mkFixed 1 4 2 .RND_CONV .SAT] ∧
    run [mkFixed 1 4 2 .RND_CONV .SAT] (-13 / 10) = -5 / 4 ∧ run [mkFixed 1 4 2 .RND_CONV .SAT] 5 = 7 / 4 ∧
    run [mkFixed 1 4 2 .RND_CONV .WRAP] 2 = -2 ∧ true.toInt < 4 := by
  refine ⟨rfl, ?_, ?_, ?_, ?_⟩ <;> decide +kernel

/-- a dense layer with quantized kernel and `quantized_relu` activation -/
example : ∃ g, toProxy ⟨true, false, some (.relu 3 1 0 false), fun k _ x => [(List.zipWith (· * ·) (k.getD []) x).sum], some [3 / 4, -1], none,
      some (fun x => ⌊2 * x⌋ / 2), none, .ok ()⟩ .WRAP = .ok g ∧ g [2, -1 / 2] = [3 / 2] := by
  refine ⟨_, rfl, ?_⟩
  decide +kernel

end HGQ.Qkeras
