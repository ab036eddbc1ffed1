import Verif.Lemmas.Bits
import Verif.Props.Quantizer

/-!
Properties C17, C18, C20 and the activation half of C32: the types derived from recorded ranges.
-/

namespace HGQ

open Spec

/-! ### C17 -/

/-- C17: every output of the quantizer that lies in the recorded range is a value of the type
returned by `get_bits_exact()`. -/
theorem C17_covers (c : QConf) (mn mx fbw x noise v : ℚ) (hv : c.forward fbw x noise false = .ok v)
    (h1 : mn ≤ v) (h2 : v ≤ mx) (hmn : -(2 : ℚ) ^ (32 : ℤ) ≤ mn) (hmx : mx < (2 : ℚ) ^ (32 : ℤ)) :
    IsKif (bitsExact mn mx fbw false).k (bitsExact mn mx fbw false).i (bitsExact mn mx fbw false).f v := by
  rw [C11_inference_total] at hv
  have : evalQ c.strategy fbw x = v := by injection hv
  subst this
  exact bitsExact_neg_covers (evalQ_grid _ _ _) h1 h2 hmn hmx

/-- C17: with `pos_only` the type contains every such output clipped at zero. -/
theorem C17_covers_pos_only (c : QConf) (mn mx fbw x noise v : ℚ) (hv : c.forward fbw x noise false = .ok v)
    (h2 : v ≤ mx) (hmx : mx < (2 : ℚ) ^ (32 : ℤ)) :
    IsKif (bitsExact mn mx fbw true).k (bitsExact mn mx fbw true).i (bitsExact mn mx fbw true).f (max v 0) := by
  rw [C11_inference_total] at hv
  have : evalQ c.strategy fbw x = v := by injection hv
  subst this
  exact bitsExact_pos_covers (evalQ_grid _ _ _) h2 hmx

-- recorded range [-4, 3.5] with one fractional bit: fixed<4,3>
example : bitsExact (-4) (7 / 2) 1 false = ⟨1, 2, 1⟩ := by decide +kernel
-- just outside: [-4, 4] needs one more bit, [-4.5, 3.5] too
example : bitsExact (-4) 4 1 false = ⟨1, 3, 1⟩ := by decide +kernel
example : bitsExact (-9 / 2) (7 / 2) 1 false = ⟨1, 3, 1⟩ := by decide +kernel
example : bitsExact (-4) 4 1 true = ⟨0, 3, 1⟩ := by decide +kernel
example : (QConf.mk 0 true none (fun _ => 1) 1).forward 1 (-39 / 10) 0 false = .ok (-4) := by decide +kernel

/-! ### C18 -/

/-- C18: no type with the same fractional bits that contains the recorded (grid-aligned) extrema has fewer
bits; and if the returned type is not the zero type, none has fewer integer bits or lacks the sign. -/
theorem C18_minimal (mn mx fbw : ℚ) (m a b : ℤ) (hm : tfRound fbw = m) (hmn : mn = a * (2 : ℚ) ^ (-m))
    (hmx : mx = b * (2 : ℚ) ^ (-m)) (hle : mn ≤ mx)
    (k' i' : ℤ) (hk' : k' = 0 ∨ k' = 1) (hw' : 0 ≤ k' + i' + m)
    (h1 : IsKif k' i' m mn) (h2 : IsKif k' i' m mx) :
    let r := bitsExact mn mx fbw false
    r.k ≤ k' ∧ r.k + r.i + r.f ≤ k' + i' + m ∧ (r ≠ ⟨0, 0, 0⟩ → r.i ≤ i') := by
  subst hm
  have hp := p2_pos (-tfRound fbw)
  change mn = a * p2 _ at hmn
  change mx = b * p2 _ at hmx
  have hkk : ((if mn < 0 then 1 else 0 : ℤ)) ≤ k' := by
    split_ifs with hneg
    · rcases hk' with rfl | rfl
      · have := h1.2.1; norm_num at this; linarith
      · exact le_rfl
    · omega
  -- on-grid value below `2^i'`
  have hgrid : ∀ n : ℤ, -tfRound fbw ≤ i' → (n : ℚ) * p2 (-tfRound fbw) < p2 i' →
      (n : ℚ) * p2 (-tfRound fbw) + p2 (-tfRound fbw) ≤ p2 i' := by
    intro n hi hn
    obtain ⟨q, hq, -⟩ := p2_int_of_nonneg (a := i' + tfRound fbw) (by omega)
    have hpi : p2 i' = q * p2 (-tfRound fbw) := by
      rw [← hq, ← p2_add]; congr 1; ring
    rw [hpi] at hn ⊢
    have : n < q := by
      have := (mul_lt_mul_iff_of_pos_right hp).mp hn
      exact_mod_cast this
    have : (n : ℚ) + 1 ≤ q := by exact_mod_cast this
    nlinarith
  -- the key dichotomy
  have key : clipBits (max (ceilLog2 |mn|) (ceilLog2 |mx + p2 (-tfRound fbw)|))
        (-tfRound fbw - (if mn < 0 then 1 else 0)) ≤ i' ∨
      (clipBits (max (ceilLog2 |mn|) (ceilLog2 |mx + p2 (-tfRound fbw)|))
        (-tfRound fbw - (if mn < 0 then 1 else 0)) ≤ -tfRound fbw ∧ ¬ mn < 0 ∧ k' + i' + tfRound fbw = 0 ∧
        i' = -tfRound fbw - 1) := by
    have hclog : ∀ y : ℚ, 0 ≤ y → y ≤ p2 i' → ceilLog2 y ≤ ((i' : ℤ) : WithBot ℤ) := by
      intro y hy hyi
      unfold ceilLog2
      split_ifs with h0
      · exact bot_le
      · exact WithBot.coe_le_coe.mpr ((le_p2_clog _ (lt_of_le_of_ne hy (Ne.symm h0))).mp hyi)
    by_cases hneg : mn < 0
    · left
      have hk1 : k' = 1 := by rw [if_pos hneg] at hkk; omega
      subst hk1
      have hl : -p2 i' ≤ mn := by
        have := h1.2.1; simp only [Int.cast_one, one_mul] at this; exact this
      have ha1 : (a : ℚ) ≤ -1 := by
        have : (a : ℚ) < 0 := by
          by_contra hc; push Not at hc
          have := mul_nonneg hc hp.le
          rw [hmn] at hneg; linarith
        have : a < 0 := by exact_mod_cast this
        exact_mod_cast (by omega : a ≤ -1)
      have hi : -tfRound fbw ≤ i' := by
        have h3 : p2 (-tfRound fbw) ≤ p2 i' := by
          have : mn ≤ -p2 (-tfRound fbw) := by rw [hmn]; nlinarith
          linarith
        exact le_of_p2_le h3
      rw [if_pos hneg]
      apply clipBits_le_of
      · apply max_le
        · exact hclog _ (abs_nonneg _) (by rw [abs_of_neg hneg]; linarith)
        · apply hclog _ (abs_nonneg _)
          rw [abs_le]
          constructor
          · linarith
          · rw [hmx]; exact hgrid b hi (by rw [← hmx]; exact h2.2.2)
      · omega
    · have hneg' := not_lt.mp hneg
      have h0x : 0 ≤ mx := le_trans hneg' hle
      rw [if_neg hneg]
      by_cases hi : -tfRound fbw ≤ i'
      · left
        apply clipBits_le_of
        · apply max_le
          · exact hclog _ (abs_nonneg _) (by rw [abs_of_nonneg hneg']; exact h1.2.2.le)
          · apply hclog _ (abs_nonneg _)
            rw [abs_of_nonneg (by linarith), hmx]
            exact hgrid b hi (by rw [← hmx]; exact h2.2.2)
        · omega
      · right
        have hk1 : k' = 1 := by omega
        have hi' : i' = -tfRound fbw - 1 := by omega
        have hx0 : mx = 0 := isKif_width_zero hk' (by omega) h2
        have hn0 : mn = 0 := le_antisymm (by rw [← hx0]; exact hle) hneg'
        refine ⟨?_, fun h => hneg h, by omega, hi'⟩
        rw [hx0, hn0, zero_add, abs_zero]
        apply clipBits_le_of
        · apply max_le
          · unfold ceilLog2; simp
          · unfold ceilLog2
            rw [if_neg (by rw [abs_of_pos hp]; exact hp.ne'), abs_of_pos hp]
            exact WithBot.coe_le_coe.mpr ((le_p2_clog _ hp).mp le_rfl)
        · omega
  intro r
  have hr : r = maskKif (if mn < 0 then 1 else 0)
      (clipBits (max (ceilLog2 |mn|) (ceilLog2 |mx + p2 (-tfRound fbw)|))
        (-tfRound fbw - (if mn < 0 then 1 else 0))) (tfRound fbw) := by
    simp only [r, bitsExact, Bool.false_eq_true, if_false]
  generalize hi : clipBits (max (ceilLog2 |mn|) (ceilLog2 |mx + p2 (-tfRound fbw)|))
    (-tfRound fbw - (if mn < 0 then 1 else 0)) = i at key hr
  rw [hr]
  unfold maskKif
  by_cases h0 : (if mn < 0 then 1 else 0 : ℤ) + i + tfRound fbw = 0
  · rw [if_neg (by simpa using h0)]
    simp only [mul_zero, add_zero, ne_eq, not_true_eq_false, false_implies, and_true]
    refine ⟨by omega, hw'⟩
  · rw [if_pos h0]
    simp only [mul_one]
    refine ⟨hkk, ?_, fun _ => ?_⟩
    · rcases key with h | ⟨h, hn, h3, h4⟩
      · omega
      · rw [if_neg hn] at h0 ⊢; omega
    · rcases key with h | ⟨h, hn, h3, h4⟩
      · exact h
      · rw [if_neg hn] at h0; omega

/-- C18 for `pos_only`: no type with the same fractional bits that contains the recorded maximum (clipped at
zero) has fewer bits. -/
theorem C18_minimal_pos_only (mn mx fbw : ℚ) (m b : ℤ) (hm : tfRound fbw = m)
    (hmx : mx = b * (2 : ℚ) ^ (-m)) (k' i' : ℤ) (hk' : k' = 0 ∨ k' = 1) (hw' : 0 ≤ k' + i' + m)
    (h2 : IsKif k' i' m (max mx 0)) :
    let r := bitsExact mn mx fbw true
    r.k ≤ k' ∧ r.k + r.i + r.f ≤ k' + i' + m := by
  subst hm
  have hp := p2_pos (-tfRound fbw)
  change mx = b * p2 _ at hmx
  have key : clipBits ((floorLog2 (max mx 0)).map (· + 1)) (-tfRound fbw - 0) + tfRound fbw ≤ k' + i' + tfRound fbw := by
    rcases lt_or_ge 0 mx with h | h
    · rw [max_eq_left h.le] at h2 ⊢
      have hlt : mx < p2 i' := h2.2.2
      have hi : -tfRound fbw ≤ i' := by
        by_contra hc; push Not at hc
        have h3 : i' = -tfRound fbw - 1 := by omega
        have := isKif_width_zero hk' (by omega) h2
        linarith
      have : clipBits ((floorLog2 mx).map (· + 1)) (-tfRound fbw - 0) ≤ i' := by
        apply clipBits_le_of
        · unfold floorLog2
          rw [if_neg h.ne']
          exact WithBot.coe_le_coe.mpr (by
            have := (lt_p2_log _ h).mp hlt
            show Int.log 2 mx + 1 ≤ i'
            omega)
        · omega
      omega
    · rw [max_eq_right h]
      have : clipBits ((floorLog2 0).map (· + 1)) (-tfRound fbw - 0) ≤ -tfRound fbw := by
        unfold floorLog2
        rw [if_pos rfl]
        exact min_le_of_left_le (by omega)
      omega
  intro r
  have hr : r = maskKif 0 (clipBits ((floorLog2 (max mx 0)).map (· + 1)) (-tfRound fbw - 0)) (tfRound fbw) := by
    simp only [r, bitsExact, if_true]
  rw [hr]
  generalize clipBits ((floorLog2 (max mx 0)).map (· + 1)) (-tfRound fbw - 0) = i at key
  unfold maskKif
  by_cases h0 : (0 : ℤ) + i + tfRound fbw = 0
  · rw [if_neg (by simpa using h0)]; simp only [mul_zero, add_zero]; exact ⟨by omega, hw'⟩
  · rw [if_pos h0]; simp only [mul_one]; exact ⟨by omega, by omega⟩

-- non-vacuity: [-4, 3.5] with one fractional bit fits (1, 2, 1), which is what is returned
example : IsKif 1 2 1 (-4) ∧ IsKif 1 2 1 (7 / 2) :=
  ⟨⟨⟨-8, by norm_num⟩, by norm_num, by norm_num⟩, ⟨⟨7, by norm_num⟩, by norm_num, by norm_num⟩⟩

/-! ### C20 -/

/-- C20: for every input whose HGQ-quantized value lies in the recorded range of its element, the proxy
quantizer built by `to_proxy_model` from that range returns exactly that value; both overflow modes
(`aggressive`), both rounding strategies. (`HQuantize` has no bias, so `canBiasCoverRnd = false`.) -/
theorem C20_hquantize_eq_proxy (c : QConf) (aggressive : Bool) (mn mx fbw x noise v : ℚ)
    (hv : c.forward fbw x noise false = .ok v) (h1 : mn ≤ v) (h2 : v ≤ mx)
    (hf : -32 ≤ fbw) (hmn : -(2 : ℚ) ^ (32 : ℤ) ≤ mn) (hmx : mx < (2 : ℚ) ^ (32 : ℤ)) :
    (proxyQ (bitsExact mn mx fbw false)).apply (proxyRnd c.strategy false) (proxySat aggressive) x = v := by
  rw [C11_inference_total] at hv
  have : evalQ c.strategy fbw x = v := by injection hv
  subst this
  have hR : proxyRnd c.strategy false = evalRnd c.strategy := by
    unfold proxyRnd evalRnd
    by_cases h : c.strategy = 3 <;> simp [h]
  have hf' : -32 ≤ tfRound fbw := by
    have := tfRound_bounds fbw
    have h3 : (-33 : ℚ) < tfRound fbw := by
      have := (abs_le.mp this).2; linarith
    have : -33 < tfRound fbw := by exact_mod_cast h3
    omega
  rw [hR, evalQ_rndMap] at *
  exact proxyQ_bitsExact _ (by cases aggressive <;> simp [proxySat]) hf' hmn hmx h1 h2

-- e.g. range [-4, 3.5], fbw 1.2 (1 bit), input -3.8: both give -4
example : (QConf.mk 0 true none (fun _ => 1) 1).forward (6 / 5) (-19 / 5) 0 false = .ok (-4) ∧
    (proxyQ (bitsExact (-4) (7 / 2) (6 / 5) false)).apply .RND .WRAP (-19 / 5) = -4 := by
  constructor <;> decide +kernel
-- outside of the recorded range they differ under WRAP
example : (proxyQ (bitsExact (-4) (7 / 2) (6 / 5) false)).apply .RND .WRAP 4 = -4 := by decide +kernel

/-! ### C32, activations -/

/-- C32: the differentiable activation bit count used in training is at least the exact one, for every
grid-aligned recorded range. -/
theorem C32_act_bw_partial (mn mx fbw : ℚ) (relu : Bool) (a b : ℤ) (hf : -32 ≤ fbw)
    (hmn : mn = a * (2 : ℚ) ^ (-tfRound fbw)) (hmx : mx = b * (2 : ℚ) ^ (-tfRound fbw)) (hle : mn ≤ mx) :
    actBwExact mn mx fbw relu ≤ actBw mn mx fbw relu := by
  have hf' : -32 ≤ tfRound fbw := by
    have := tfRound_bounds fbw
    have h3 : (-33 : ℚ) < tfRound fbw := by
      have := (abs_le.mp this).2; linarith
    have : -33 < tfRound fbw := by exact_mod_cast h3
    omega
  have hp := p2_pos (-tfRound fbw)
  change mn = a * p2 _ at hmn
  change mx = b * p2 _ at hmx
  cases relu
  · -- use minimality with the type given by the approximate count
    unfold actBw bitsApprox
    simp only [Bool.false_eq_true, if_false]
    unfold actBwExact
    dsimp only
    by_cases hz : max |mn| |mx| = 0
    · have hmn0 : mn = 0 := by
        have := le_max_left |mn| |mx|; rw [hz] at this; exact abs_nonpos_iff.mp this
      have hmx0 : mx = 0 := by
        have := le_max_right |mn| |mx|; rw [hz] at this; exact abs_nonpos_iff.mp this
      rw [show floorLog2 (max |mn| |mx|) = ⊥ by unfold floorLog2; rw [if_pos hz]]
      have := C18_minimal mn mx fbw (tfRound fbw) a b rfl hmn hmx hle 0 (-tfRound fbw) (.inl rfl) (by omega)
        (by rw [hmn0]; exact ⟨⟨0, by simp⟩, by simp, p2_pos _⟩) (by rw [hmx0]; exact ⟨⟨0, by simp⟩, by simp, p2_pos _⟩)
      show _ ≤ (0 : ℤ)
      have := this.2.1
      omega
    · have hpos : 0 < max |mn| |mx| := lt_of_le_of_ne (le_max_of_le_left (abs_nonneg _)) (Ne.symm hz)
      rw [show floorLog2 (max |mn| |mx|) = (Int.log 2 (max |mn| |mx|) : ℤ) by unfold floorLog2; rw [if_neg hz]]
      have hlt := (lt_p2_log (Int.log 2 (max |mn| |mx|) + 1) hpos).mpr (by omega)
      set L := Int.log 2 (max |mn| |mx|) with hL
      have hn : |mn| < p2 (L + 1) := lt_of_le_of_lt (le_max_left _ _) hlt
      have hx : |mx| < p2 (L + 1) := lt_of_le_of_lt (le_max_right _ _) hlt
      have hgr : p2 (-tfRound fbw) ≤ max |mn| |mx| := by
        have hint : ∀ n : ℤ, (n : ℚ) * p2 (-tfRound fbw) ≠ 0 →
            p2 (-tfRound fbw) ≤ |(n : ℚ) * p2 (-tfRound fbw)| := by
          intro n hn0
          have hn1 : n ≠ 0 := by rintro rfl; simp at hn0
          rw [abs_mul, abs_of_pos hp]
          have : (1 : ℚ) ≤ |(n : ℚ)| := by exact_mod_cast Int.one_le_abs hn1
          nlinarith
        by_cases h0 : mn = 0
        · have h1 : mx ≠ 0 := by rintro rfl; rw [h0] at hz; simp at hz
          rw [hmx] at h1 ⊢
          exact le_max_of_le_right (hint b h1)
        · rw [hmn] at h0 ⊢
          exact le_max_of_le_left (hint a h0)
      have hLf : -tfRound fbw ≤ L := (p2_le_log _ hpos).mp hgr
      show _ ≤ reluBits ((L + 1 : ℤ) : WithBot ℤ) _
      unfold reluBits
      apply le_max_of_le_left
      have hkneg : ∀ k : ℤ, (k = 0 ∧ ¬ mn < 0) ∨ (k = 1 ∧ mn < 0) →
          IsKif k (L + 1) (tfRound fbw) mn ∧ IsKif k (L + 1) (tfRound fbw) mx := by
        intro k hk
        have h1 := abs_lt.mp hn
        have h2 := abs_lt.mp hx
        have e1 : (2 : ℚ) ^ (L + 1) = p2 (L + 1) := rfl
        rcases hk with ⟨rfl, h⟩ | ⟨rfl, h⟩
        · push Not at h
          refine ⟨⟨⟨a, hmn⟩, by push_cast; linarith, h1.2⟩, ⟨⟨b, hmx⟩, by push_cast; linarith, h2.2⟩⟩
        · refine ⟨⟨⟨a, hmn⟩, by rw [e1]; push_cast; linarith, h1.2⟩, ⟨⟨b, hmx⟩, by rw [e1]; push_cast; linarith, h2.2⟩⟩
      by_cases hneg : mn < 0
      · obtain ⟨q1, q2⟩ := hkneg 1 (.inr ⟨rfl, hneg⟩)
        have := (C18_minimal mn mx fbw (tfRound fbw) a b rfl hmn hmx hle 1 (L + 1) (.inr rfl) (by omega) q1 q2).2.1
        rw [if_pos hneg]; omega
      · obtain ⟨q1, q2⟩ := hkneg 0 (.inl ⟨rfl, hneg⟩)
        have := (C18_minimal mn mx fbw (tfRound fbw) a b rfl hmn hmx hle 0 (L + 1) (.inl rfl) (by omega) q1 q2).2.1
        rw [if_neg hneg]; omega
  · unfold actBw bitsApprox actBwExact
    simp only [if_true]
    by_cases hz : max mx 0 = 0
    · rw [show floorLog2 (max mx 0) = ⊥ by unfold floorLog2; rw [if_pos hz]]
      have := (C18_minimal_pos_only mn mx fbw (tfRound fbw) b rfl hmx 0 (-tfRound fbw) (.inl rfl) (by omega)
        (by rw [hz]; exact ⟨⟨0, by simp⟩, by simp, p2_pos _⟩)).2
      show _ ≤ (0 : ℤ)
      omega
    · have hpos : 0 < max mx 0 := lt_of_le_of_ne (le_max_right _ _) (Ne.symm hz)
      have hmxpos : 0 < mx := by
        rcases lt_max_iff.mp hpos with h | h
        · exact h
        · exact absurd h (lt_irrefl _)
      have hmax : max mx 0 = mx := max_eq_left hmxpos.le
      rw [show floorLog2 (max mx 0) = (Int.log 2 mx : ℤ) by unfold floorLog2; rw [if_neg hz, hmax]]
      have hlt := (lt_p2_log (Int.log 2 mx + 1) hmxpos).mpr (by omega)
      set L := Int.log 2 mx with hL
      have hb : (1 : ℚ) ≤ b := by
        have : (0 : ℚ) < b := by
          by_contra hc; push Not at hc
          have := mul_nonpos_of_nonpos_of_nonneg hc hp.le
          linarith
        have : 0 < b := by exact_mod_cast this
        exact_mod_cast (by omega : 1 ≤ b)
      have hLf : -tfRound fbw ≤ L := (p2_le_log _ hmxpos).mp (by rw [hmx]; nlinarith)
      have := (C18_minimal_pos_only mn mx fbw (tfRound fbw) b rfl hmx 0 (L + 1) (.inl rfl) (by omega)
        (by rw [hmax]; exact ⟨⟨b, hmx⟩, by push_cast; linarith, hlt⟩)).2
      show _ ≤ reluBits ((L + 1 : ℤ) : WithBot ℤ) _
      unfold reluBits
      apply le_max_of_le_left
      omega

/-- Without grid alignment (`trace_minmax` clamps sigmoid/tanh/softmax ranges, bops.py lines 91-110) the exact
count can exceed the training count: range [0, 1] with -1 fractional bits. -/
theorem C32_needs_grid : ∃ mn mx fbw : ℚ, mn ≤ mx ∧ actBw mn mx fbw false < actBwExact mn mx fbw false :=
  ⟨0, 1, -1, by norm_num, by decide +kernel⟩

-- approx can be strictly larger: [-4, 3.5] at 1 fractional bit is 4 bits exactly, 5 approximately
example : actBwExact (-4) (7 / 2) 1 false = 4 ∧ actBw (-4) (7 / 2) 1 false = 5 := by
  constructor <;> decide +kernel

end HGQ
