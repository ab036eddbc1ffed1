import Verif.Lemmas.ArrBits
import Verif.Model.Float32
import Verif.Props.Bits

/-!
Properties C30 (`get_arr_container`), C31 (`get_arr_bits`), C32 (kernels), C33 (`activation_kif_forward`).
-/

namespace HGQ

open Spec

/-! ### C30 -/

/-- C30: every entry of an array with at most 32 fractional bits is a value of the returned type. -/
theorem C30_sound (arr : List ℚ) (h : ∀ a ∈ arr, ∃ n : ℤ, a = n * (2 : ℚ) ^ (-32 : ℤ)) :
    ∀ a ∈ arr, IsKif (arrContainer arr).k (arrContainer arr).i (arrContainer arr).f a := by
  intro a ha
  unfold arrContainer
  by_cases hz : (arr.all fun a => decide (a = 0)) = true
  · rw [if_pos hz]
    rw [List.all_eq_true] at hz
    have : a = 0 := by simpa using hz a ha
    subst this
    exact ⟨⟨0, by simp⟩, by norm_num, by norm_num⟩
  · rw [if_neg hz]
    dsimp only
    obtain ⟨-, c2, c3, -⟩ := contLoop_spec arr 64 (-32) 32 (by norm_num) (by norm_num)
    have hall : allInt arr (contLoop arr 64 (-32) 32) = true := by
      by_cases he : contLoop arr 64 (-32) 32 = 32
      · rw [he, allInt_iff]; exact h
      · exact c3 he
    generalize contLoop arr 64 (-32) 32 = f at hall c2
    rw [allInt_iff] at hall
    refine ⟨hall a ha, ?_, ?_⟩
    · -- lower bound
      split_ifs with hany
      · by_cases hneg : a < 0
        · have hmem : ceilLog2 (-a * p2 f) ∈ (arr.filter fun a => decide (a < 0)).map fun a => ceilLog2 (-a * p2 f) :=
            List.mem_map.mpr ⟨a, by simp [ha, hneg], rfl⟩
          have hle := le_trans (le_maxBot hmem) (le_max_right
            (maxBot ((arr.filter fun a => decide (¬ a < 0)).map fun a => (floorLog2 (a * p2 f)).map (· + 1))) _)
          have hpos : 0 < -a * p2 f := mul_pos (by linarith) (p2_pos f)
          have hc : ceilLog2 (-a * p2 f) = (Int.clog 2 (-a * p2 f) : ℤ) := by
            unfold ceilLog2; rw [if_neg hpos.ne']
          rw [hc] at hle
          generalize max (maxBot ((arr.filter fun a => decide (¬ a < 0)).map fun a => (floorLog2 (a * p2 f)).map (· + 1)))
            (maxBot ((arr.filter fun a => decide (a < 0)).map fun a => ceilLog2 (-a * p2 f))) = M at hle
          induction M using WithBot.recBotCoe with
          | bot => exact absurd hle (WithBot.not_coe_le_bot _)
          | coe M =>
            have hle' : Int.clog 2 (-a * p2 f) ≤ M := WithBot.coe_le_coe.mp hle
            have h3 := (le_p2_clog M hpos).mpr hle'
            rw [WithBot.unbotD_coe]
            change -(((1 : ℤ) : ℚ) * p2 (M - f)) ≤ a
            have h4 : p2 M = p2 (M - f) * p2 f := by rw [← p2_add]; congr 1; ring
            rw [h4] at h3
            have := (mul_le_mul_iff_of_pos_right (p2_pos f)).mp h3
            push_cast; linarith
        · have := zpow2_pos ((max (maxBot ((arr.filter fun a => decide (¬ a < 0)).map fun a => (floorLog2 (a * p2 f)).map (· + 1)))
            (maxBot ((arr.filter fun a => decide (a < 0)).map fun a => ceilLog2 (-a * p2 f)))).unbotD 0 - f)
          push_cast; push Not at hneg; linarith
      · rw [List.any_eq_true] at hany
        push Not at hany
        have := hany a ha
        have h0 : 0 ≤ a := by simpa using this
        simpa using h0
    · change a < p2 _
      rcases lt_or_ge 0 a with hpos | hneg
      · have hmem : (floorLog2 (a * p2 f)).map (· + 1) ∈
            (arr.filter fun a => decide (¬ a < 0)).map fun a => (floorLog2 (a * p2 f)).map (· + 1) :=
          List.mem_map.mpr ⟨a, by simp [ha, hpos.le], rfl⟩
        have hle := le_trans (le_maxBot hmem) (le_max_left _
          (maxBot ((arr.filter fun a => decide (a < 0)).map fun a => ceilLog2 (-a * p2 f))))
        have hp : 0 < a * p2 f := mul_pos hpos (p2_pos f)
        have hc : (floorLog2 (a * p2 f)).map (· + 1) = ((Int.log 2 (a * p2 f) + 1 : ℤ) : WithBot ℤ) := by
          unfold floorLog2; rw [if_neg hp.ne']; rfl
        rw [hc] at hle
        generalize max (maxBot ((arr.filter fun a => decide (¬ a < 0)).map fun a => (floorLog2 (a * p2 f)).map (· + 1)))
          (maxBot ((arr.filter fun a => decide (a < 0)).map fun a => ceilLog2 (-a * p2 f))) = M at hle
        induction M using WithBot.recBotCoe with
        | bot => exact absurd hle (WithBot.not_coe_le_bot _)
        | coe M =>
          have hle' : Int.log 2 (a * p2 f) + 1 ≤ M := WithBot.coe_le_coe.mp hle
          have h3 := (lt_p2_log M hp).mpr (by omega)
          rw [WithBot.unbotD_coe]
          have h4 : p2 M = p2 (M - f) * p2 f := by rw [← p2_add]; congr 1; ring
          rw [h4] at h3
          exact (mul_lt_mul_iff_of_pos_right (p2_pos f)).mp h3
      · exact lt_of_le_of_lt hneg (p2_pos _)

/-- C30: the type is minimal in each of its three parameters among all types (with more than -32 fractional
bits) containing the array. (An all-zero array is special: `ufixed<1,1>` is returned.) -/
theorem C30_minimal (arr : List ℚ) (hnz : ∃ a ∈ arr, a ≠ 0) (k' i' f' : ℤ) (hk' : k' = 0 ∨ k' = 1) (hf' : -32 < f')
    (h : ∀ a ∈ arr, IsKif k' i' f' a) :
    (arrContainer arr).k ≤ k' ∧ (arrContainer arr).i ≤ i' ∧ (arrContainer arr).f ≤ max f' (-31) := by
  obtain ⟨a0, ha0, hne⟩ := hnz
  unfold arrContainer
  rw [if_neg]
  swap
  · rw [List.all_eq_true]; push Not; exact ⟨a0, ha0, by simpa using hne⟩
  dsimp only
  obtain ⟨-, c2, -, c4⟩ := contLoop_spec arr 64 (-32) 32 (by norm_num) (by norm_num)
  generalize contLoop arr 64 (-32) 32 = f at c2 c4
  refine ⟨?_, ?_, ?_⟩
  · split_ifs with hany
    · rw [List.any_eq_true] at hany
      obtain ⟨a, ha, hneg⟩ := hany
      have hneg : a < 0 := by simpa using hneg
      rcases hk' with rfl | rfl
      · have := (h a ha).2.1; norm_num at this; linarith
      · exact le_rfl
    · omega
  · have hle : max (maxBot ((arr.filter fun a => decide (¬ a < 0)).map fun a => (floorLog2 (a * p2 f)).map (· + 1)))
        (maxBot ((arr.filter fun a => decide (a < 0)).map fun a => ceilLog2 (-a * p2 f))) ≤ ((i' + f : ℤ) : WithBot ℤ) := by
      apply max_le
      · apply maxBot_le
        intro y hy
        obtain ⟨a, ha, rfl⟩ := List.mem_map.mp hy
        have ha' := (List.mem_filter.mp ha).1
        unfold floorLog2
        split_ifs with h0
        · exact bot_le
        · have hge : 0 ≤ a := by simpa using (List.mem_filter.mp ha).2
          have hp : 0 < a * p2 f := lt_of_le_of_ne (mul_nonneg hge (p2_pos f).le) (Ne.symm h0)
          have hlt : a * p2 f < p2 (i' + f) := by
            rw [p2_add]; exact mul_lt_mul_of_pos_right (h a ha').2.2 (p2_pos f)
          have := (lt_p2_log _ hp).mp hlt
          exact WithBot.coe_le_coe.mpr (by show Int.log 2 (a * p2 f) + 1 ≤ i' + f; omega)
      · apply maxBot_le
        intro y hy
        obtain ⟨a, ha, rfl⟩ := List.mem_map.mp hy
        have ha' := (List.mem_filter.mp ha).1
        have hneg : a < 0 := by simpa using (List.mem_filter.mp ha).2
        have hp : 0 < -a * p2 f := mul_pos (by linarith) (p2_pos f)
        unfold ceilLog2
        rw [if_neg hp.ne']
        have hl : -a ≤ p2 i' := by
          have h5 := (h a ha').2.1
          change -((k' : ℚ) * p2 i') ≤ a at h5
          have := p2_pos i'
          rcases hk' with rfl | rfl <;> push_cast at h5 <;> linarith
        have : -a * p2 f ≤ p2 (i' + f) := by
          rw [p2_add]; exact mul_le_mul_of_nonneg_right hl (p2_pos f).le
        exact WithBot.coe_le_coe.mpr ((le_p2_clog _ hp).mp this)
    -- not -inf: there is a non-zero entry
    have hnb : max (maxBot ((arr.filter fun a => decide (¬ a < 0)).map fun a => (floorLog2 (a * p2 f)).map (· + 1)))
        (maxBot ((arr.filter fun a => decide (a < 0)).map fun a => ceilLog2 (-a * p2 f))) ≠ ⊥ := by
      intro hb
      have hb1 := le_bot_iff.mp (hb ▸ le_max_left (maxBot ((arr.filter fun a => decide (¬ a < 0)).map fun a =>
        (floorLog2 (a * p2 f)).map (· + 1))) (maxBot ((arr.filter fun a => decide (a < 0)).map fun a => ceilLog2 (-a * p2 f))))
      have hb2 := le_bot_iff.mp (hb ▸ le_max_right (maxBot ((arr.filter fun a => decide (¬ a < 0)).map fun a =>
        (floorLog2 (a * p2 f)).map (· + 1))) (maxBot ((arr.filter fun a => decide (a < 0)).map fun a => ceilLog2 (-a * p2 f))))
      rcases lt_or_gt_of_ne hne with hlt | hgt
      · have hmem : ceilLog2 (-a0 * p2 f) ∈ (arr.filter fun a => decide (a < 0)).map fun a => ceilLog2 (-a * p2 f) :=
          List.mem_map.mpr ⟨a0, by simp [ha0, hlt], rfl⟩
        have := le_maxBot hmem
        rw [hb2] at this
        have hp : 0 < -a0 * p2 f := mul_pos (by linarith) (p2_pos f)
        unfold ceilLog2 at this; rw [if_neg hp.ne'] at this
        exact absurd this (WithBot.not_coe_le_bot _)
      · have hmem : (floorLog2 (a0 * p2 f)).map (· + 1) ∈
            (arr.filter fun a => decide (¬ a < 0)).map fun a => (floorLog2 (a * p2 f)).map (· + 1) :=
          List.mem_map.mpr ⟨a0, by simp [ha0, hgt.le], rfl⟩
        have := le_maxBot hmem
        rw [hb1] at this
        have hp : 0 < a0 * p2 f := mul_pos hgt (p2_pos f)
        unfold floorLog2 at this; rw [if_neg hp.ne'] at this
        exact absurd this (WithBot.not_coe_le_bot (Int.log 2 (a0 * p2 f) + 1))
    generalize max (maxBot ((arr.filter fun a => decide (¬ a < 0)).map fun a => (floorLog2 (a * p2 f)).map (· + 1)))
      (maxBot ((arr.filter fun a => decide (a < 0)).map fun a => ceilLog2 (-a * p2 f))) = M at hle hnb
    induction M using WithBot.recBotCoe with
    | bot => exact absurd rfl hnb
    | coe M =>
      have := WithBot.coe_le_coe.mp hle
      rw [WithBot.unbotD_coe]; omega
  · by_contra hc
    push Not at hc
    have h1 : f' ≤ f - 1 := by omega
    have h2 : allInt arr (f - 1) = true := allInt_mono h1 ((allInt_iff _ _).mpr fun a ha => (h a ha).1)
    have h3 := c4 (by omega)
    rw [h3] at h2; exact absurd h2 (by simp)

/-- C30: 32 fractional bits are reported exactly when the array does not fit 31 (the "not quantized" signal). -/
theorem C30_unrepresentable_signal (arr : List ℚ) (hnz : ∃ a ∈ arr, a ≠ 0) :
    (arrContainer arr).f = 32 ↔ ¬ ∀ a ∈ arr, ∃ n : ℤ, a = n * (2 : ℚ) ^ (-31 : ℤ) := by
  obtain ⟨a0, ha0, hne⟩ := hnz
  unfold arrContainer
  rw [if_neg]
  swap
  · rw [List.all_eq_true]; push Not; exact ⟨a0, ha0, by simpa using hne⟩
  dsimp only
  obtain ⟨c1, c2, c3, c4⟩ := contLoop_spec arr 64 (-32) 32 (by norm_num) (by norm_num)
  have h31 : (∀ a ∈ arr, ∃ n : ℤ, a = n * (2 : ℚ) ^ (-31 : ℤ)) ↔ allInt arr 31 = true := (allInt_iff arr 31).symm
  rw [h31]
  constructor
  · intro he
    rw [he] at c4
    have := c4 (by norm_num)
    rw [show (32 : ℤ) - 1 = 31 from rfl] at this
    rw [this]; simp
  · intro hn
    by_contra he
    exact hn (allInt_mono (by omega) (c3 he))

example : arrContainer [3 / 4, -2, 0] = ⟨1, 1, 2⟩ := by decide +kernel
example : arrContainer [1 / 3] = ⟨0, -1, 32⟩ := by decide +kernel
example : ∀ a ∈ ([3 / 4, -2, 0] : List ℚ), ∃ n : ℤ, a = n * (2 : ℚ) ^ (-32 : ℤ) := by
  intro a ha
  simp only [List.mem_cons, List.not_mem_nil, or_false] at ha
  rcases ha with rfl | rfl | rfl
  · exact ⟨3 * 2 ^ 30, by norm_num⟩
  · exact ⟨-2 ^ 33, by norm_num⟩
  · exact ⟨0, by norm_num⟩

/-! ### C31 -/

/-- What "true highest and lowest set bit" means for a non-zero value: `a` is an odd multiple of `2^-f` and
`2^(i-1) ≤ |a| < 2^i`; the sign is reported; zero has no bits. -/
def TrueBits (a : ℚ) (r : KIF) : Prop :=
  (a = 0 → r = ⟨0, 0, 0⟩) ∧
  (a ≠ 0 → (r.k = 1 ↔ a < 0) ∧ (r.k = 0 ↔ ¬ a < 0) ∧ (∃ n : ℤ, Odd n ∧ a = n * (2 : ℚ) ^ (-r.f)) ∧
    (2 : ℚ) ^ (r.i - 1) ≤ |a| ∧ |a| < (2 : ℚ) ^ r.i)

theorem arrBitsEntry_true {a : ℚ} {t o n : ℕ} (ho : Odd o) (ha : |a * p2 32| = ((2 ^ t * o : ℕ) : ℚ))
    (h1 : 2 ^ t * o ≠ 1) (htn : t ≤ n - 1) : TrueBits a (arrBitsEntry n a) := by
  have hlog := t_le_log (t := t) ho
  have hmin : min t (n - 1) = t := min_eq_left htn
  rw [arrBitsEntry_eq ho ha h1 (by omega), hmin]
  have h0 : a ≠ 0 := by
    rintro rfl
    have : (2 ^ t * o : ℕ) ≠ 0 := by have := ho.pos; positivity
    simp at ha
    have := ho.pos; omega
  refine ⟨fun h => absurd h h0, fun _ => ⟨?_, ?_, ?_, ?_, ?_⟩⟩
  · dsimp only; split_ifs with h <;> simp [h]
  · dsimp only; split_ifs with h <;> simp [h]
  · have habs : |a| = o * p2 (t - 32) := by
      have h2 : |a| * p2 32 = ((2 ^ t * o : ℕ) : ℚ) := by
        rw [← ha, abs_mul, abs_of_pos (p2_pos 32)]
      have h3 : |a| = |a| * p2 32 * p2 (-32) := by rw [mul_assoc, p2_mul_neg, mul_one]
      rw [h3, h2]; push_cast
      rw [show (2 : ℚ) ^ t = p2 t by unfold p2; exact (zpow_natCast 2 t).symm, sub_eq_add_neg, p2_add]; ring
    have hexp : (-(32 - (t : ℤ))) = t - 32 := by ring
    rcases abs_choice a with h | h
    · refine ⟨o, by exact_mod_cast ho, ?_⟩
      rw [h] at habs; dsimp only; rw [hexp, habs]; push_cast; rfl
    · refine ⟨-o, by simpa using ho, ?_⟩
      have : a = -(|a|) := by rw [h]; ring
      dsimp only; rw [hexp]
      conv_lhs => rw [this, habs]
      push_cast; unfold p2; ring
  all_goals
    have h2 : |a| * p2 32 = ((2 ^ t * o : ℕ) : ℚ) := by
      rw [← ha, abs_mul, abs_of_pos (p2_pos 32)]
    have hpos : (2 ^ t * o : ℕ) ≠ 0 := by have := ho.pos; positivity
    have hlo : (2 ^ Nat.log 2 (2 ^ t * o) : ℕ) ≤ 2 ^ t * o := Nat.pow_log_le_self 2 hpos
    have hhi : 2 ^ t * o < 2 ^ (Nat.log 2 (2 ^ t * o) + 1) := Nat.lt_pow_succ_log_self (by norm_num) _
    generalize Nat.log 2 (2 ^ t * o) = L at *
    dsimp only
  · change p2 _ ≤ _
    have : p2 ((L : ℤ) + 1 - 32 - 1) * p2 32 ≤ |a| * p2 32 := by
      rw [h2, ← p2_add, show (L : ℤ) + 1 - 32 - 1 + 32 = L by ring, p2_natCast]
      exact_mod_cast hlo
    exact (mul_le_mul_iff_of_pos_right (p2_pos 32)).mp this
  · change _ < p2 _
    have : |a| * p2 32 < p2 ((L : ℤ) + 1 - 32) * p2 32 := by
      rw [h2, ← p2_add, show (L : ℤ) + 1 - 32 + 32 = ((L + 1 : ℕ) : ℤ) by push_cast; ring, p2_natCast]
      exact_mod_cast hhi
    exact (mul_lt_mul_iff_of_pos_right (p2_pos 32)).mp this

theorem clog_succ_toNat (m : ℕ) (hm : m ≠ 0) : (Int.clog 2 ((m : ℚ) + 1)).toNat = Nat.log 2 m + 1 := by
  have h1 : (0 : ℚ) < (m : ℚ) + 1 := by positivity
  have hlo : (2 ^ Nat.log 2 m : ℕ) ≤ m := Nat.pow_log_le_self 2 hm
  have hhi : m < 2 ^ (Nat.log 2 m + 1) := Nat.lt_pow_succ_log_self (by norm_num) _
  have hle : Int.clog 2 ((m : ℚ) + 1) ≤ ((Nat.log 2 m + 1 : ℕ) : ℤ) := by
    rw [← le_p2_clog _ h1, p2_natCast]
    have : m + 1 ≤ 2 ^ (Nat.log 2 m + 1) := hhi
    exact_mod_cast this
  have hge : ((Nat.log 2 m : ℕ) : ℤ) < Int.clog 2 ((m : ℚ) + 1) := by
    by_contra hc; push Not at hc
    rw [← le_p2_clog _ h1, p2_natCast] at hc
    have : m + 1 ≤ 2 ^ Nat.log 2 m := by exact_mod_cast hc
    omega
  omega

/-- C31: for every array with at most 31 fractional bits, `get_arr_bits` reports the true sign, highest and
lowest bit of each entry (in exact arithmetic). -/
theorem C31_true_bits_partial (arr : List ℚ) (h : ∀ a ∈ arr, ∃ n : ℤ, a = n * (2 : ℚ) ^ (-31 : ℤ)) :
    List.Forall₂ TrueBits arr (getArrBits id arr) := by
  rw [getArrBits_eq, List.forall₂_map_right_iff]
  rw [List.forall₂_same]
  intro a ha
  by_cases h0 : a = 0
  · subst h0; rw [arrBitsEntry_zero]; exact ⟨fun _ => rfl, fun h => absurd rfl h⟩
  · obtain ⟨t, o, ho, hto⟩ := exists_decomp (grid_mono (f := 31) (g := 32) (by norm_num) (h a ha)) h0
    have hne1 : 2 ^ t * o ≠ 1 := by
      obtain ⟨n, hn⟩ := h a ha
      intro hc
      rw [hc] at hto
      change a = n * p2 (-31) at hn
      have : a * p2 32 = ((2 * n : ℤ) : ℚ) := by
        rw [hn, mul_assoc, ← p2_add]; norm_num [p2]; ring
      rw [this] at hto
      have h5 : |2 * n| = 1 := by exact_mod_cast hto
      rcases abs_choice (2 * n) with h6 | h6 <;> omega
    refine arrBitsEntry_true ho hto hne1 ?_
    have hmem : |a * p2 32| ∈ arr.map fun a => |a * p2 32| := List.mem_map.mpr ⟨a, ha, rfl⟩
    have hn := le_arrBitsN id hmem
    rw [hto] at hn
    have hpos : 2 ^ t * o ≠ 0 := by have := ho.pos; positivity
    simp only [id] at hn
    rw [clog_succ_toNat _ hpos] at hn
    have := t_le_log (t := t) ho
    omega

/-- C31 is sharp: the smallest value the doc-string's 32 fractional bits allow is reported as having no bits. -/
theorem C31_fails_at_32_bits : getArrBits id [(2 : ℚ) ^ (-32 : ℤ)] = [⟨0, 0, 0⟩] ∧
    ¬ TrueBits ((2 : ℚ) ^ (-32 : ℤ)) ⟨0, 0, 0⟩ := by
  refine ⟨by decide +kernel, fun h => ?_⟩
  obtain ⟨-, -, -, h4, -⟩ := h.2 (by norm_num)
  norm_num at h4

/-- C31 with float32 arithmetic (`arr + 1` absorbs the 1 above `2^24`): a kernel whose largest entry is a power
of two, e.g. 1/2, is reported with two bits instead of one. -/
theorem C31_float32_overcount : getArrBits fl32 [(1 / 2 : ℚ)] = [⟨0, 0, 2⟩] ∧
    getArrBits id [(1 / 2 : ℚ)] = [⟨0, 0, 1⟩] := by
  constructor <;> decide +kernel

/-- C31 under any rounding of `arr + 1` (float32 included): the reported type still contains each entry. -/
theorem C31_sound_any_rounding (fl : ℚ → ℚ) (arr : List ℚ)
    (h : ∀ a ∈ arr, ∃ n : ℤ, a = n * (2 : ℚ) ^ (-31 : ℤ)) :
    List.Forall₂ (fun a r => (∃ n : ℤ, a = n * (2 : ℚ) ^ (-r.f)) ∧ (|a| < (2 : ℚ) ^ r.i) ∧ (r.k = 1 ↔ a < 0))
      arr (getArrBits fl arr) := by
  rw [getArrBits_eq, List.forall₂_map_right_iff]
  rw [List.forall₂_same]
  intro a ha
  by_cases h0 : a = 0
  · subst h0; rw [arrBitsEntry_zero]; exact ⟨⟨0, by simp⟩, by norm_num, by simp⟩
  · obtain ⟨t, o, ho, hto⟩ := exists_decomp (grid_mono (f := 31) (g := 32) (by norm_num) (h a ha)) h0
    have hne1 : 2 ^ t * o ≠ 1 := by
      obtain ⟨n, hn⟩ := h a ha
      intro hc
      rw [hc] at hto
      change a = n * p2 (-31) at hn
      have : a * p2 32 = ((2 * n : ℤ) : ℚ) := by
        rw [hn, mul_assoc, ← p2_add]; norm_num [p2]; ring
      rw [this] at hto
      have h5 : |2 * n| = 1 := by exact_mod_cast hto
      rcases abs_choice (2 * n) with h6 | h6 <;> omega
    have hlog := t_le_log (t := t) ho
    have hT := arrBitsEntry_true (n := t + 1) ho hto hne1 (by omega)
    rw [arrBitsEntry_eq ho hto hne1 (by omega)] at hT
    rw [arrBitsEntry_eq ho hto hne1 (by omega)]
    obtain ⟨t1, -, ⟨n, -, hn⟩, -, t5⟩ := hT.2 h0
    refine ⟨?_, t5, t1⟩
    dsimp only at hn ⊢
    exact grid_mono (by omega) ⟨n, hn⟩

example : ∀ a ∈ ([5 / 8, -1 / 2, 0] : List ℚ), ∃ n : ℤ, a = n * (2 : ℚ) ^ (-31 : ℤ) := by
  intro a ha
  simp only [List.mem_cons, List.not_mem_nil, or_false] at ha
  rcases ha with rfl | rfl | rfl
  · exact ⟨5 * 2 ^ 28, by norm_num⟩
  · exact ⟨-2 ^ 30, by norm_num⟩
  · exact ⟨0, by norm_num⟩
example : getArrBits id [5 / 8, -1 / 2, 0] = [⟨0, 0, 3⟩, ⟨1, 0, 1⟩, ⟨0, 0, 0⟩] := by decide +kernel

/-! ### C32, kernels -/

/-- `kernel_bw_exact`, base.py lines 176-180, for a kernel with per-weight bitwidths. -/
def kernelBwExact (fl : ℚ → ℚ) (strategy : ℤ) (ws : List (ℚ × ℚ)) : List ℤ :=
  (getBitsExactRef fl strategy ws).map fun b => b.i + b.f

/-- `kernel_bw`, base.py lines 160-166, per-weight bitwidths (`scale_grad` is the identity on values). -/
def kernelBw (strategy : ℤ) (ws : List (ℚ × ℚ)) : List ℤ :=
  ws.map fun w =>
    let (i, f, _) := bitsApproxRef (evalQ strategy w.2 w.1) w.2
    reluBits i f

/-- C32: the training-time kernel bit count is at least the exact one, weight by weight, for every kernel and
bitwidths up to 31. -/
theorem C32_kernel_bw_partial (strategy : ℤ) (ws : List (ℚ × ℚ)) (hf : ∀ w ∈ ws, w.2 ≤ 31) :
    List.Forall₂ (· ≤ ·) (kernelBwExact id strategy ws) (kernelBw strategy ws) := by
  have hr : ∀ x : ℚ, x ≤ 31 → tfRound x ≤ 31 := by
    intro x hx
    have := (abs_le.mp (tfRound_bounds x)).1
    have h3 : (tfRound x : ℚ) < 32 := by linarith
    have : tfRound x < 32 := by exact_mod_cast h3
    omega
  have hgrid : ∀ a ∈ ws.map (fun wf => evalQ strategy wf.2 wf.1), ∃ n : ℤ, a = n * (2 : ℚ) ^ (-31 : ℤ) := by
    intro a ha
    obtain ⟨w, hw, rfl⟩ := List.mem_map.mp ha
    exact grid_mono (hr _ (hf w hw)) (evalQ_grid _ _ _)
  have hT := C31_true_bits_partial _ hgrid
  unfold kernelBwExact kernelBw getBitsExactRef
  rw [getArrBits_eq] at hT ⊢
  generalize arrBitsN id _ = n at hT
  simp only [List.map_map, List.forall₂_map_right_iff, List.forall₂_map_left_iff, List.forall₂_same] at hT ⊢
  intro w hw
  have ht := hT w hw
  simp only [Function.comp_apply] at ht ⊢
  obtain ⟨m, hm⟩ := evalQ_grid strategy w.2 w.1
  generalize evalQ strategy w.2 w.1 = q at ht hm
  generalize arrBitsEntry n q = r at ht
  unfold bitsApproxRef
  by_cases h0 : q = 0
  · rw [ht.1 h0]
    simp [maskKif, h0, floorLog2]
    rfl
  · obtain ⟨-, -, ⟨o, ho, hoq⟩, h3, h4⟩ := ht.2 h0
    change _ = (o : ℚ) * p2 _ at hoq
    change p2 _ ≤ _ at h3
    change _ < p2 _ at h4
    have hp : 0 < |q| := abs_pos.mpr h0
    have hlog : Int.log 2 |q| = r.i - 1 := by
      have a1 := (p2_le_log _ hp).mp h3
      have a2 := (lt_p2_log _ hp).mp h4
      omega
    have hfr : r.f ≤ tfRound w.2 := by
      by_contra hc; push Not at hc
      obtain ⟨e, he⟩ := Int.eq_ofNat_of_zero_le (show 0 ≤ r.f - tfRound w.2 - 1 by omega)
      have : (o : ℚ) = ((m * 2 ^ (e + 1) : ℤ) : ℚ) := by
        have h5 : (o : ℚ) * p2 (-r.f) * p2 r.f = m * p2 (-tfRound w.2) * p2 r.f := by rw [← hoq, hm]
        rw [mul_assoc, p2_neg_mul, mul_one, mul_assoc, ← p2_add] at h5
        rw [h5, show -tfRound w.2 + r.f = ((e + 1 : ℕ) : ℤ) by push_cast; omega, p2_natCast]
        push_cast; ring
      have h6 : o = m * 2 ^ (e + 1) := by exact_mod_cast this
      rw [h6, pow_succ] at ho
      have : Even (m * (2 ^ e * 2)) := ⟨m * 2 ^ e, by ring⟩
      exact (Int.not_even_iff_odd.mpr ho) this
    have hfl : floorLog2 |q| = ((r.i - 1 : ℤ) : WithBot ℤ) := by
      unfold floorLog2; rw [if_neg hp.ne', hlog]
    rw [hfl]
    show _ ≤ max ((r.i - 1 + 1) + tfRound w.2) 0
    have hle : r.i + r.f ≤ max ((r.i - 1 + 1) + tfRound w.2) 0 := le_max_of_le_left (by omega)
    unfold maskKif
    split_ifs
    · simpa using hle
    · simp

/-- With float32 arithmetic C32 fails: weight 1/2 with one fractional bit has training count 1 and "exact" count 2. -/
theorem C32_float32_underestimates : kernelBw 0 [(1 / 2, 1)] = [1] ∧ kernelBwExact fl32 0 [(1 / 2, 1)] = [2] := by
  constructor <;> decide +kernel

example : kernelBwExact id 0 [(5 / 8, 4), (-1 / 3, 2)] = [3, 1] ∧ kernelBw 0 [(5 / 8, 4), (-1 / 3, 2)] = [4, 1] := by
  constructor <;> decide +kernel

/-! ### C33 -/

/-- C33: for an input type of at most 20 bits, the type returned for an activation function contains the function's
value at every value of the input type. The function's values have at most 32 fractional bits, on the input type and at 0
and 1 (looked at for an input type without bits). -/
theorem C33_activation_covers (φ : ℚ → ℚ) (k i f : ℤ) (hk : k = 0 ∨ k = 1) (hw : k + i + f ≤ 20)
    (hφ : ∀ x, IsKif k i f x ∨ x = 0 ∨ x = 1 → ∃ n : ℤ, φ x = n * (2 : ℚ) ^ (-32 : ℤ)) (x : ℚ) (hx : IsKif k i f x) :
    let r := activationKifForward φ k i f
    IsKif r.k r.i r.f (φ x) := by
  have hmem : φ x ∈ ((linspace (-p2 (if k + i + f ≤ 0 then (0, 1, 0) else (k, i, f) : ℤ × ℤ × ℤ).2.1 *
        (if k + i + f ≤ 0 then (0, 1, 0) else (k, i, f) : ℤ × ℤ × ℤ).1)
      (p2 (if k + i + f ≤ 0 then (0, 1, 0) else (k, i, f) : ℤ × ℤ × ℤ).2.1 -
        p2 (-(if k + i + f ≤ 0 then (0, 1, 0) else (k, i, f) : ℤ × ℤ × ℤ).2.2))
      (min (2 ^ ((if k + i + f ≤ 0 then (0, 1, 0) else (k, i, f) : ℤ × ℤ × ℤ).1 +
        (if k + i + f ≤ 0 then (0, 1, 0) else (k, i, f) : ℤ × ℤ × ℤ).2.1 +
        (if k + i + f ≤ 0 then (0, 1, 0) else (k, i, f) : ℤ × ℤ × ℤ).2.2).toNat) (2 ^ 20))).map φ) := by
    apply List.mem_map_of_mem
    by_cases h0 : k + i + f ≤ 0
    · simp only [if_pos h0]
      have hx0 : x = 0 := by
        have h1 : IsKif k (-f - k) f x := by
          obtain ⟨g, l, u⟩ := hx
          have hle : (2 : ℚ) ^ i ≤ (2 : ℚ) ^ (-f - k) := p2_le_p2 (by omega)
          refine ⟨g, ?_, lt_of_lt_of_le u hle⟩
          have hk0 : (0 : ℚ) ≤ k := by rcases hk with rfl | rfl <;> simp
          have := mul_le_mul_of_nonneg_left hle hk0
          linarith
        exact isKif_width_zero hk (by omega) h1
      subst hx0
      decide +kernel
    · simp only [if_neg h0]
      have hN : min (2 ^ (k + i + f).toNat) (2 ^ 20) = 2 ^ (k + i + f).toNat :=
        min_eq_left (Nat.pow_le_pow_right (by norm_num) (by omega))
      rw [hN]
      exact mem_linspace hk (by omega) hx
  intro r
  have hr : r = activationKifForward φ k i f := rfl
  unfold activationKifForward at hr
  dsimp only at hr
  rw [hr]
  refine C30_sound _ ?_ _ hmem
  intro a ha
  obtain ⟨y, hy, rfl⟩ := List.mem_map.mp ha
  apply hφ y
  by_cases h0 : k + i + f ≤ 0
  · right
    simp only [if_pos h0] at hy
    have e : linspace (-p2 1 * ((0 : ℤ) : ℚ)) (p2 1 - p2 (-0)) (min (2 ^ ((0 : ℤ) + 1 + 0).toNat) (2 ^ 20)) = [0, 1] := by
      decide +kernel
    rw [e] at hy
    simpa using hy
  · left
    simp only [if_neg h0] at hy
    rw [min_eq_left (Nat.pow_le_pow_right (by norm_num) (by omega))] at hy
    exact linspace_isKif hk (by omega) hy

/-- Beyond 20 bits only `2^20` sample points are looked at and coverage can fail: here a 21-bit input type and a
function that is 0 on every sampled point but 8 at the (unsampled) value 1. -/
theorem C33_fails_beyond_20_bits : ∃ (φ : ℚ → ℚ) (x : ℚ), IsKif 0 21 0 x ∧
    (∀ y, ∃ n : ℤ, φ y = n * (2 : ℚ) ^ (-32 : ℤ)) ∧
    let r := activationKifForward φ 0 21 0
    ¬ IsKif r.k r.i r.f (φ x) := by
  refine ⟨fun y => if y = 1 then 8 else 0, 1, ⟨⟨1, by norm_num⟩, by norm_num, by norm_num⟩, ?_, ?_⟩
  · intro y
    dsimp only
    split_ifs
    · exact ⟨2 ^ 35, by norm_num⟩
    · exact ⟨0, by norm_num⟩
  · have hz : activationKifForward (fun y => if y = 1 then 8 else 0) 0 21 0 = ⟨0, 1, 0⟩ := by
      unfold activationKifForward
      dsimp only
      rw [if_neg (by norm_num)]
      dsimp only
      unfold arrContainer
      rw [if_pos]
      rw [List.all_eq_true]
      intro a ha
      obtain ⟨y, hy, rfl⟩ := List.mem_map.mp ha
      unfold linspace at hy
      obtain ⟨j, hj, rfl⟩ := List.mem_map.mp hy
      have hne : (-p2 21 * ((0 : ℤ) : ℚ) + (j : ℚ) * ((p2 21 - p2 (-0) - -p2 21 * ((0 : ℤ) : ℚ)) /
          (((min (2 ^ ((0 : ℤ) + 21 + 0).toNat) (2 ^ 20) : ℕ) : ℚ) - 1))) ≠ 1 := by
        have hm : (min (2 ^ ((0 : ℤ) + 21 + 0).toNat) (2 ^ 20) : ℕ) = 1048576 := by decide
        rw [hm]
        norm_num [p2]
        intro h
        have h2 : (j : ℚ) * 2097151 = 1048575 := by
          rw [mul_div_assoc'] at h
          rw [div_eq_iff (by norm_num)] at h
          linarith
        have : j * 2097151 = 1048575 := by exact_mod_cast h2
        omega
      rw [if_neg hne]; simp
    rw [hz]
    intro r
    rintro ⟨-, -, h⟩
    simp only [r] at h
    norm_num at h

-- ReLU meets the hypothesis of `C33_activation_covers` on a type with 3 fractional bits
example (x : ℚ) (h : IsKif 1 2 3 x ∨ x = 0 ∨ x = 1) : ∃ n : ℤ, max x 0 = n * (2 : ℚ) ^ (-32 : ℤ) := by
  have hx : ∃ n : ℤ, x = n * (2 : ℚ) ^ (-32 : ℤ) := by
    rcases h with ⟨⟨n, rfl⟩, -, -⟩ | rfl | rfl
    · exact ⟨n * 2 ^ 29, by push_cast; rw [mul_assoc]; norm_num⟩
    · exact ⟨0, by norm_num⟩
    · exact ⟨2 ^ 32, by norm_num⟩
  rcases max_choice x 0 with e | e <;> rw [e]
  · exact hx
  · exact ⟨0, by norm_num⟩

example : IsKif 1 2 1 (-7 / 2) := ⟨⟨-7, by norm_num⟩, by norm_num, by norm_num⟩
example : activationKifForward (fun x => x * x) 1 1 1 = ⟨0, 3, 2⟩ := by decide +kernel

end HGQ
