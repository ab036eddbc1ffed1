import Verif.Spec.Float32
import Verif.Model.Float32Ops
import Verif.Lemmas.Bits
import Verif.Lemmas.Rounding
import Verif.Lemmas.Layer
import Verif.Lemmas.Container
import Mathlib.Tactic.LinearCombination

namespace HGQ

open Spec (IsFloat32)

theorem tfRound_mono {x y : ℚ} (h : x ≤ y) : tfRound x ≤ tfRound y := by
  have hf : ⌊x⌋ ≤ ⌊y⌋ := Int.floor_le_floor h
  have hx := Int.floor_le x
  have hx2 := Int.lt_floor_add_one x
  have hy := Int.floor_le y
  have hy2 := Int.lt_floor_add_one y
  have h1 : tfRound x ≤ ⌊x⌋ + 1 := by unfold tfRound; dsimp only; split_ifs <;> omega
  have h2 : ⌊y⌋ ≤ tfRound y := by unfold tfRound; dsimp only; split_ifs <;> omega
  by_cases he : ⌊x⌋ = ⌊y⌋
  · unfold tfRound
    dsimp only
    rw [← he]
    have hd : x - ⌊x⌋ ≤ y - ⌊x⌋ := by linarith
    split_ifs <;> first | omega | (exfalso; linarith)
  · omega

theorem tfRound_neg (x : ℚ) : tfRound (-x) = -tfRound x := by
  by_cases hi : x = ⌊x⌋
  · rw [hi, ← Int.cast_neg, tfRound_int, tfRound_int]
  · have hlt : (⌊x⌋ : ℚ) < x := lt_of_le_of_ne (Int.floor_le x) (Ne.symm hi)
    have hfl : ⌊-x⌋ = -⌊x⌋ - 1 := by
      rw [Int.floor_eq_iff]
      push_cast
      constructor <;> linarith [Int.lt_floor_add_one x]
    unfold tfRound
    dsimp only
    rw [hfl]
    push_cast
    split_ifs <;> first | omega | (exfalso; linarith) | skip

/-- a nonzero number between powers of two -/
theorem log_bounds {x : ℚ} (h : x ≠ 0) : p2 (Int.log 2 |x|) ≤ |x| ∧ |x| < p2 (Int.log 2 |x| + 1) :=
  ⟨(p2_le_log _ (abs_pos.mpr h)).mpr le_rfl, (lt_p2_log _ (abs_pos.mpr h)).mpr (by omega)⟩

theorem log_eq {x : ℚ} {E : ℤ} (h1 : p2 E ≤ |x|) (h2 : |x| < p2 (E + 1)) : Int.log 2 |x| = E := by
  have hp : 0 < |x| := lt_of_lt_of_le (p2_pos E) h1
  have a := (p2_le_log _ hp).mp h1
  have b := (lt_p2_log _ hp).mp h2
  omega

theorem fl32_neg (x : ℚ) : fl32 (-x) = -fl32 x := by
  unfold fl32
  by_cases h : x = 0
  · simp [h]
  · rw [if_neg (neg_ne_zero.mpr h), if_neg h]
    dsimp only
    rw [abs_neg, neg_mul, tfRound_neg]
    push_cast
    ring

theorem fl32_zero : fl32 0 = 0 := by simp [fl32]

/-- a multiple of the spacing is not changed -/
theorem fl32_of_grid {x : ℚ} (h : ∃ n : ℤ, x = n * p2 (Int.log 2 |x| - 23)) : fl32 x = x := by
  unfold fl32
  by_cases h0 : x = 0
  · rw [if_pos h0, h0]
  · rw [if_neg h0]
    dsimp only
    obtain ⟨n, hn⟩ := h
    generalize Int.log 2 |x| - 23 = e at hn
    rw [hn, mul_assoc, p2_mul_neg, mul_one, tfRound_int]

/-- the spacing of a float32 number -/
theorem _root_.Spec.IsFloat32.grid {x : ℚ} (h : IsFloat32 x) : ∃ n : ℤ, x = n * p2 (Int.log 2 |x| - 23) := by
  obtain ⟨m, e, hm, rfl⟩ := h
  change ∃ n : ℤ, (m : ℚ) * p2 e = n * p2 (Int.log 2 |(m : ℚ) * p2 e| - 23)
  by_cases h0 : m = 0
  · exact ⟨0, by simp [h0]⟩
  · have hx : (m : ℚ) * p2 e ≠ 0 := mul_ne_zero (by exact_mod_cast h0) (p2_ne e)
    obtain ⟨h1, -⟩ := log_bounds hx
    generalize Int.log 2 |(m : ℚ) * p2 e| = E at h1
    have hlt : |(m : ℚ) * p2 e| < p2 (e + 24) := by
      rw [abs_mul, abs_of_pos (p2_pos e), add_comm, p2_add]
      refine mul_lt_mul_of_pos_right ?_ (p2_pos e)
      have : ((|m| : ℤ) : ℚ) < ((2 ^ 24 : ℤ) : ℚ) := by exact_mod_cast hm
      rw [Int.cast_abs] at this
      rw [show (24 : ℤ) = ((24 : ℕ) : ℤ) by rfl, p2_natCast]
      exact this
    have hE : E < e + 24 := lt_of_p2_lt (lt_of_le_of_lt h1 hlt)
    obtain ⟨k, hk⟩ := Int.eq_ofNat_of_zero_le (show 0 ≤ e - (E - 23) by omega)
    refine ⟨m * 2 ^ k, ?_⟩
    rw [show e = (k : ℤ) + (E - 23) by omega, p2_add, p2_natCast]
    push_cast; ring

theorem _root_.Spec.IsFloat32.fl {x : ℚ} (h : IsFloat32 x) : fl32 x = x := fl32_of_grid h.grid

/-- numbers of a grid with at most 2^24 units -/
theorem isFloat32_of_grid {x : ℚ} {e : ℤ} (h : ∃ n : ℤ, x = n * p2 e) (hb : |x| ≤ p2 (e + 24)) : IsFloat32 x := by
  obtain ⟨n, rfl⟩ := h
  have hb' : |(n : ℚ)| ≤ 2 ^ 24 := by
    rw [abs_mul, abs_of_pos (p2_pos e), add_comm, p2_add] at hb
    have := le_of_mul_le_mul_right hb (p2_pos e)
    rw [show (24 : ℤ) = ((24 : ℕ) : ℤ) by rfl, p2_natCast] at this
    push_cast at this
    exact this
  have hb2 : |n| ≤ 2 ^ 24 := by
    rw [← Int.cast_abs] at hb'
    exact_mod_cast hb'
  by_cases hlt : |n| < 2 ^ 24
  · exact ⟨n, e, hlt, rfl⟩
  · have heq : |n| = 2 ^ 24 := le_antisymm hb2 (not_lt.mp hlt)
    rcases abs_eq (by positivity) |>.mp heq with h | h
    · refine ⟨2 ^ 23, e + 1, by norm_num, ?_⟩
      rw [h]; change _ = _ * p2 (e + 1); rw [p2_succ]; push_cast; ring
    · refine ⟨-2 ^ 23, e + 1, by norm_num, ?_⟩
      rw [h]; change _ = _ * p2 (e + 1); rw [p2_succ]; push_cast; ring

theorem _root_.Spec.IsFloat32.mul_p2 {x : ℚ} (h : IsFloat32 x) (f : ℤ) : IsFloat32 (x * p2 f) := by
  obtain ⟨m, e, hm, rfl⟩ := h
  refine ⟨m, e + f, hm, ?_⟩
  change _ = _ * p2 (e + f)
  rw [p2_add]
  change _ * p2 e * p2 f = _
  ring

theorem _root_.Spec.IsFloat32.neg {x : ℚ} (h : IsFloat32 x) : IsFloat32 (-x) := by
  obtain ⟨m, e, hm, rfl⟩ := h
  exact ⟨-m, e, by rwa [abs_neg], by push_cast; ring⟩

/-- a coarser grid -/
theorem grid_coarse {x : ℚ} {a b : ℤ} (hab : a ≤ b) (h : ∃ n : ℤ, x = n * p2 b) : ∃ n : ℤ, x = n * p2 a := by
  have := grid_mono (a := x) (f := -b) (g := -a) (by omega) (by simpa using h)
  simpa using this

/-- rounding does not pass a float32 number: from below -/
theorem fl32_le_of_le {y z : ℚ} (hz : IsFloat32 z) (h : y ≤ z) : fl32 y ≤ z := by
  by_cases hy0 : y = 0
  · rw [hy0, fl32_zero]; rw [hy0] at h; exact h
  obtain ⟨hl, hu⟩ := log_bounds hy0
  have hfl : fl32 y = tfRound (y * p2 (-(Int.log 2 |y| - 23))) * p2 (Int.log 2 |y| - 23) := by
    unfold fl32; rw [if_neg hy0]
  set E := Int.log 2 |y| with hE
  have hpe := p2_pos (E - 23)
  -- when z is a multiple of the spacing at y
  have key : (∃ n : ℤ, z = n * p2 (E - 23)) → fl32 y ≤ z := by
    rintro ⟨n, hn⟩
    rw [hfl, hn]
    refine mul_le_mul_of_nonneg_right ?_ hpe.le
    have : tfRound (y * p2 (-(E - 23))) ≤ tfRound (n : ℚ) := by
      apply tfRound_mono
      rw [hn] at h
      calc y * p2 (-(E - 23)) ≤ (n * p2 (E - 23)) * p2 (-(E - 23)) := mul_le_mul_of_nonneg_right h (p2_pos _).le
        _ = n := by rw [mul_assoc, p2_mul_neg, mul_one]
    rw [tfRound_int] at this
    exact_mod_cast this
  rcases lt_or_gt_of_ne hy0 with hneg | hpos
  · have hya : |y| = -y := abs_of_neg hneg
    by_cases hz0 : 0 ≤ z
    · refine le_trans ?_ hz0
      rw [hfl]
      refine mul_nonpos_of_nonpos_of_nonneg ?_ hpe.le
      have : tfRound (y * p2 (-(E - 23))) ≤ tfRound ((0 : ℤ) : ℚ) := by
        apply tfRound_mono
        rw [Int.cast_zero]
        exact mul_nonpos_of_nonpos_of_nonneg hneg.le (p2_pos _).le
      rw [tfRound_int] at this
      exact_mod_cast this
    · push Not at hz0
      have hza : |z| = -z := abs_of_neg hz0
      by_cases hzE : p2 E ≤ |z|
      · apply key
        have := hz.grid
        rwa [log_eq hzE (by rw [hza]; rw [hya] at hu; linarith)] at this
      · push Not at hzE
        -- fl32 y ≤ -2^E < z
        have h1 : fl32 y ≤ -p2 E := by
          have hy' : y ≤ -p2 E := by rw [hya] at hl; linarith
          have : tfRound (y * p2 (-(E - 23))) ≤ tfRound ((-2 ^ 23 : ℤ) : ℚ) := by
            apply tfRound_mono
            calc y * p2 (-(E - 23)) ≤ -p2 E * p2 (-(E - 23)) := mul_le_mul_of_nonneg_right hy' (p2_pos _).le
              _ = ((-2 ^ 23 : ℤ) : ℚ) := by
                rw [neg_mul, ← p2_add, show E + -(E - 23) = ((23 : ℕ) : ℤ) by push_cast; ring, p2_natCast]
                push_cast; rfl
          rw [tfRound_int] at this
          rw [hfl]
          calc (tfRound (y * p2 (-(E - 23))) : ℚ) * p2 (E - 23) ≤ ((-2 ^ 23 : ℤ) : ℚ) * p2 (E - 23) :=
                mul_le_mul_of_nonneg_right (by exact_mod_cast this) hpe.le
            _ = -p2 E := by
              have : p2 E = p2 ((23 : ℕ) : ℤ) * p2 (E - 23) := by rw [← p2_add]; congr 1; push_cast; ring
              rw [this, p2_natCast]; push_cast; ring
        rw [hza] at hzE
        linarith
  · have hya : |y| = y := abs_of_pos hpos
    have hzpos : 0 < z := lt_of_lt_of_le hpos h
    have hza : |z| = z := abs_of_pos hzpos
    apply key
    refine grid_coarse ?_ hz.grid
    have : E ≤ Int.log 2 |z| := (p2_le_log _ (abs_pos.mpr hzpos.ne')).mp (by rw [hza]; rw [hya] at hl; linarith)
    omega

/-- rounding does not pass a float32 number: from above -/
theorem le_fl32_of_le {y z : ℚ} (hz : IsFloat32 z) (h : z ≤ y) : z ≤ fl32 y := by
  have := fl32_le_of_le hz.neg (neg_le_neg h)
  rw [fl32_neg] at this
  linarith

/-- rounding error -/
theorem fl32_error {y : ℚ} {E : ℤ} (h : |y| < p2 E) : |fl32 y - y| ≤ p2 (E - 25) := by
  by_cases hy0 : y = 0
  · rw [hy0, fl32_zero]; simpa using (p2_pos _).le
  have hfl : fl32 y = tfRound (y * p2 (-(Int.log 2 |y| - 23))) * p2 (Int.log 2 |y| - 23) := by
    unfold fl32; rw [if_neg hy0]
  have hL : Int.log 2 |y| < E := (lt_p2_log _ (abs_pos.mpr hy0)).mp h
  generalize Int.log 2 |y| = L at hfl hL
  have hb := tfRound_bounds (y * p2 (-(L - 23)))
  have hyy : y = y * p2 (-(L - 23)) * p2 (L - 23) := by rw [mul_assoc, p2_neg_mul, mul_one]
  have : fl32 y - y = -(y * p2 (-(L - 23)) - tfRound (y * p2 (-(L - 23)))) * p2 (L - 23) := by
    rw [hfl]
    linear_combination -hyy
  rw [this, abs_mul, abs_neg, abs_of_pos (p2_pos _)]
  calc |y * p2 (-(L - 23)) - tfRound (y * p2 (-(L - 23)))| * p2 (L - 23) ≤ 1 / 2 * p2 (L - 23) :=
        mul_le_mul_of_nonneg_right hb (p2_pos _).le
    _ = p2 (L - 24) := by
      rw [show L - 23 = L - 24 + 1 by ring, p2_succ]; ring
    _ ≤ p2 (E - 25) := p2_le_p2 (by omega)

/-- integers and half-integers that are small enough are float32 numbers -/
theorem isFloat32_half {x : ℚ} (h : ∃ n : ℤ, x = n / 2) (hb : |x| ≤ 2 ^ 23) : IsFloat32 x := by
  obtain ⟨n, hn⟩ := h
  refine isFloat32_of_grid (e := -1) ⟨n, ?_⟩ ?_
  · rw [hn]; unfold p2; norm_num; ring
  · refine le_trans hb ?_
    unfold p2; norm_num

theorem isFloat32_int (n : ℤ) (hb : |n| ≤ 2 ^ 24) : IsFloat32 n := by
  refine isFloat32_of_grid (e := 0) ⟨n, ?_⟩ ?_
  · rw [p2_zero, mul_one]
  · have : ((|n| : ℤ) : ℚ) ≤ ((2 ^ 24 : ℤ) : ℚ) := by exact_mod_cast hb
    rw [Int.cast_abs] at this
    refine le_trans this ?_
    unfold p2; norm_num

/-- float32 numbers from 2^23 on are integers -/
theorem _root_.Spec.IsFloat32.int_of_large {x : ℚ} (h : IsFloat32 x) (hb : 2 ^ 23 ≤ |x|) : ∃ n : ℤ, x = n := by
  have hpos : 0 < |x| := lt_of_lt_of_le (by norm_num) hb
  have hlog : 23 ≤ Int.log 2 |x| := (p2_le_log _ hpos).mp (le_trans (by unfold p2; norm_num) hb)
  obtain ⟨n, hn⟩ := grid_coarse (a := 0) (by omega) h.grid
  exact ⟨n, by rw [hn, p2_zero, mul_one]⟩

/-- the only number below one half from which adding one half in float32 reaches one -/
def badHalf : ℚ := 1 / 2 - p2 (-25)

theorem tfRound_near {n : ℤ} {t : ℚ} (ht : |t| < 1 / 2) : tfRound ((n : ℚ) + t) = n := by
  have hb := abs_le.mp (tfRound_bounds ((n : ℚ) + t))
  have ht := abs_lt.mp ht
  have h1 : (tfRound ((n : ℚ) + t) : ℚ) < n + 1 := by linarith
  have h2 : (n : ℚ) - 1 < tfRound ((n : ℚ) + t) := by linarith
  have h1 : tfRound ((n : ℚ) + t) < n + 1 := by exact_mod_cast h1
  have h2 : n - 1 < tfRound ((n : ℚ) + t) := by exact_mod_cast h2
  omega

theorem tfRound_even_tie {n : ℤ} (hn : n % 2 = 0) {t : ℚ} (ht : |t| ≤ 1 / 2) : tfRound ((n : ℚ) + t) = n := by
  rcases lt_or_eq_of_le ht with ht | ht
  · exact tfRound_near ht
  · rcases abs_eq (by norm_num : (0 : ℚ) ≤ 1 / 2) |>.mp ht with h | h
    · unfold tfRound
      have : ⌊(n : ℚ) + t⌋ = n := by rw [Int.floor_eq_iff, h]; constructor <;> linarith
      dsimp only
      rw [this, h]
      simp [hn]
    · unfold tfRound
      have : ⌊(n : ℚ) + t⌋ = n - 1 := by
        rw [Int.floor_eq_iff, h]; push_cast; constructor <;> linarith
      dsimp only
      rw [this, h]
      push_cast
      rw [if_neg (by ring_nf; norm_num), if_neg (by ring_nf; norm_num), if_neg (by omega)]
      omega

/-- adding one half and flooring in float32 -/
theorem halfUp32 {s : ℚ} (hs : IsFloat32 s) (hb : |s| < 2 ^ 23) : flr (fl32 (s + 1 / 2)) = flr (s + 1 / 2) ↔ s ≠ badHalf := by
  set y := s + 1 / 2 with hy
  set n := flr y with hn
  have hn1 : (n : ℚ) ≤ y := Int.floor_le y
  have hn2 : y < n + 1 := Int.lt_floor_add_one y
  have hsb := abs_lt.mp hb
  have hnb1 : n ≤ 2 ^ 23 := by
    have : (n : ℚ) < ((2 ^ 23 + 1 : ℤ) : ℚ) := by push_cast; linarith
    have : n < 2 ^ 23 + 1 := by exact_mod_cast this
    omega
  have hnb2 : -2 ^ 23 ≤ n := by
    have : ((-2 ^ 23 - 1 : ℤ) : ℚ) < n := by push_cast; linarith
    have : -2 ^ 23 - 1 < n := by exact_mod_cast this
    omega
  have hlow : (n : ℚ) ≤ fl32 y := le_fl32_of_le (isFloat32_int n (abs_le.mpr ⟨by omega, by omega⟩)) hn1
  have hfloor : fl32 y < n + 1 → flr (fl32 y) = n := fun h => Int.floor_eq_iff.mpr ⟨hlow, h⟩
  have hlarge : n ≠ 2 ^ 23 ∨ y = n := by
    by_contra hc
    push Not at hc
    obtain ⟨hc1, hc2⟩ := hc
    have hnq : (n : ℚ) = 2 ^ 23 := by rw [hc1]; norm_num
    have hspos : 0 < s := by linarith
    have hl : Int.log 2 |s| = 22 := by
      apply log_eq
      · rw [abs_of_pos hspos]; unfold p2; norm_num; linarith
      · rw [abs_of_pos hspos]; unfold p2; norm_num; linarith
    obtain ⟨k, hk⟩ := hs.grid
    rw [hl, show (22 : ℤ) - 23 = -1 by norm_num, show p2 (-1) = 1 / 2 by unfold p2; norm_num] at hk
    have hk1 : (k : ℚ) < ((2 ^ 24 : ℤ) : ℚ) := by push_cast; linarith
    have hk1 : k < 2 ^ 24 := by exact_mod_cast hk1
    have hk2 : (k : ℚ) ≤ ((2 ^ 24 - 1 : ℤ) : ℚ) := by
      have : k ≤ 2 ^ 24 - 1 := by omega
      exact_mod_cast this
    push_cast at hk2
    exact hc2 (le_antisymm (by linarith) hn1)
  by_cases hyn : y = n
  · have hfy : fl32 y = n := by rw [hyn]; exact (isFloat32_int n (abs_le.mpr ⟨by omega, by omega⟩)).fl
    constructor
    · intro _ hbad
      have : (n : ℚ) = 1 - p2 (-25) := by rw [← hyn, hy, hbad]; unfold badHalf; ring
      have hp : p2 (-25) = 1 / 2 ^ 25 := by unfold p2; norm_num
      rw [hp] at this
      have h1 : (0 : ℚ) < n := by rw [this]; norm_num
      have h2 : (n : ℚ) < 1 := by rw [this]; norm_num
      have h1 : 0 < n := by exact_mod_cast h1
      have h2 : n < 1 := by exact_mod_cast h2
      omega
    · intro _
      exact hfloor (by rw [hfy]; linarith)
  replace hlarge := hlarge.resolve_right hyn
  by_cases hsmall : y ≤ n + 1 / 2
  · have h1 : fl32 y ≤ n + 1 / 2 := by
      refine fl32_le_of_le (isFloat32_half ⟨2 * n + 1, by push_cast; ring⟩ ?_) hsmall
      rw [abs_le]
      have a1 : (n : ℚ) ≤ 2 ^ 23 - 1 := by
        have : n ≤ 2 ^ 23 - 1 := by omega
        exact_mod_cast this
      have a2 : (-2 ^ 23 : ℚ) ≤ n := by exact_mod_cast hnb2
      constructor <;> linarith
    constructor
    · intro _ hbad
      have : y = 1 - p2 (-25) := by rw [hy, hbad]; unfold badHalf; ring
      have hp : p2 (-25) = 1 / 2 ^ 25 := by unfold p2; norm_num
      have hn0 : n = 0 := by
        rw [hn, this, hp]
        exact Int.floor_eq_iff.mpr ⟨by norm_num, by norm_num⟩
      rw [hn0, this, hp] at hsmall
      norm_num at hsmall
    · intro _
      exact hfloor (by linarith)
  · push Not at hsmall
    -- s is strictly between n and n + 1/2
    have hs1 : (n : ℚ) < s := by linarith
    have hs2 : s < n + 1 / 2 := by linarith
    by_cases hn0 : n = 0
    · rw [hn0] at hs1 hs2 hsmall hn2 ⊢
      rw [Int.cast_zero] at hs1
      rw [Int.cast_zero, zero_add] at hs2 hsmall hn2
      have hypos : 0 < y := by linarith
      have hp24 : p2 24 = 2 ^ 24 := by unfold p2; norm_num
      have hp25 : p2 (-25) = 1 / 2 ^ 25 := by unfold p2; norm_num
      have hpm24 : p2 (-24) = 1 / 2 ^ 24 := by unfold p2; norm_num
      have hlogy : Int.log 2 |y| = -1 := by
        apply log_eq
        · rw [abs_of_pos hypos]; unfold p2; norm_num; linarith
        · rw [abs_of_pos hypos]; unfold p2; norm_num; linarith
      have hfl : fl32 y = tfRound (y * 2 ^ 24) * (1 / 2 ^ 24) := by
        unfold fl32
        rw [if_neg hypos.ne', hlogy]
        norm_num [hp24, hpm24]
      constructor
      · intro h hbad
        have h1 : y * 2 ^ 24 = ((2 ^ 24 : ℤ) : ℚ) + (-1 / 2) := by
          rw [hy, hbad]; unfold badHalf; rw [hp25]; norm_num
        rw [hfl, h1, tfRound_even_tie (by norm_num) (by norm_num [abs_le])] at h
        norm_num [flr] at h
      · intro hbad
        have hlt : s < badHalf := by
          unfold badHalf at hbad ⊢
          rw [hp25] at hbad ⊢
          by_cases hq : s < 1 / 4
          · refine lt_trans hq ?_; norm_num
          · push Not at hq
            have hl : Int.log 2 |s| = -2 := by
              apply log_eq
              · rw [abs_of_pos hs1]; unfold p2; norm_num; linarith
              · rw [abs_of_pos hs1]; unfold p2; norm_num; linarith
            obtain ⟨k, hk⟩ := hs.grid
            rw [hl, show (-2 : ℤ) - 23 = -25 by norm_num, hp25] at hk
            have hk1 : (k : ℚ) < ((2 ^ 24 : ℤ) : ℚ) := by push_cast; linarith
            have hk1 : k < 2 ^ 24 := by exact_mod_cast hk1
            have hk2 : k ≠ 2 ^ 24 - 1 := by
              rintro rfl
              apply hbad
              rw [hk]; push_cast; norm_num
            have hk3 : k ≤ 2 ^ 24 - 2 := by omega
            have hk3 : (k : ℚ) ≤ ((2 ^ 24 - 2 : ℤ) : ℚ) := by exact_mod_cast hk3
            push_cast at hk3
            rw [hk]
            linarith
        have h1 : fl32 y < 1 := by
          have hb := (abs_le.mp (tfRound_bounds (y * 2 ^ 24))).1
          unfold badHalf at hlt
          rw [hp25] at hlt
          have h2 : y * 2 ^ 24 < 2 ^ 24 - 1 / 2 := by norm_num at hlt ⊢; linarith
          rw [hfl]
          generalize tfRound (y * 2 ^ 24) = r at hb
          have h3 : (r : ℚ) < 2 ^ 24 := by
            norm_num at hb h2 ⊢
            linarith
          norm_num at h3 ⊢
          linarith
        have := hfloor (by rw [hn0, Int.cast_zero, zero_add]; exact h1)
        rw [this, hn0]
    · have hs0 : s ≠ 0 := by
        intro h0
        rw [h0] at hs1 hs2
        have h1 : n < 0 := by exact_mod_cast hs1
        have : ((-1 : ℤ) : ℚ) < n := by push_cast; linarith
        have : -1 < n := by exact_mod_cast this
        omega
      obtain ⟨hl1, hl2⟩ := log_bounds hs0
      have hl3 : Int.log 2 |s| < 23 := (lt_p2_log _ (abs_pos.mpr hs0)).mp (lt_of_lt_of_le hb (by unfold p2; norm_num))
      obtain ⟨k, hk⟩ := hs.grid
      set L := Int.log 2 |s| with hL
      have hgrid : ∃ j : ℤ, y = j * p2 (L - 23) := by
        obtain ⟨j, hj⟩ := grid_coarse (x := 1 / 2) (a := L - 23) (b := -1) (by omega) ⟨1, by unfold p2; norm_num⟩
        exact ⟨k + j, by rw [hy, hj, hk]; push_cast; ring⟩
      have hyb : |y| ≤ p2 (L - 23 + 24) := by
        rw [show L - 23 + 24 = L + 1 by ring]
        rcases lt_or_gt_of_ne hn0 with hneg | hpos
        · have h1 : (n : ℚ) ≤ -1 := by
            have : n ≤ -1 := by omega
            exact_mod_cast this
          rw [abs_of_nonpos (by linarith)]
          rw [abs_of_neg (by linarith)] at hl2
          linarith
        · have h1 : (1 : ℚ) ≤ n := by exact_mod_cast hpos
          rw [abs_of_pos (by linarith)] at hl1 hl2 ⊢
          have hL0 : 0 ≤ L + 1 := by
            have : p2 0 < p2 (L + 1) := by rw [p2_zero]; linarith
            exact (lt_of_p2_lt this).le
          obtain ⟨z, hz, -⟩ := p2_int_of_nonneg hL0
          rw [hz] at hl2 ⊢
          have : (n : ℚ) < z := by linarith
          have : n < z := by exact_mod_cast this
          have : (n : ℚ) + 1 ≤ z := by exact_mod_cast this
          linarith
      have hfy : fl32 y = y := (isFloat32_of_grid hgrid hyb).fl
      constructor
      · intro _ hbad
        have hp : p2 (-25) = 1 / 2 ^ 25 := by unfold p2; norm_num
        unfold badHalf at hbad
        rw [hp] at hbad
        have h1 : (-1 : ℚ) < n := by rw [hbad] at hs2; linarith
        have h2 : (n : ℚ) < 1 := by rw [hbad] at hs1; linarith
        have h1 : -1 < n := by exact_mod_cast h1
        have h2 : n < 1 := by exact_mod_cast h2
        omega
      · intro _
        rw [hfy]

/-- a small disturbance of a large multiple of a power of two disappears -/
theorem fl32_absorb_large {n f : ℤ} {t : ℚ} (k : ℕ) (hn0 : 2 ^ k ≤ |n|) (hn : |n| < 2 ^ 24) (ht : |t| ≤ p2 (-f + k - 25)) :
    fl32 (n * p2 (-f) + t) = n * p2 (-f) := by
  have hne : n ≠ 0 := by
    rintro rfl
    have : (0 : ℤ) < 2 ^ k := by positivity
    rw [abs_zero] at hn0
    omega
  wlog hpos : 0 < n generalizing n t
  · have := this (n := -n) (t := -t) (by rwa [abs_neg]) (by rwa [abs_neg]) (by rwa [abs_neg]) (by omega) (by omega)
    have h2 : ((-n : ℤ) : ℚ) * p2 (-f) + -t = -(n * p2 (-f) + t) := by push_cast; ring
    rw [h2, fl32_neg] at this
    push_cast at this
    linarith
  have hx : IsFloat32 (n * p2 (-f)) := ⟨n, -f, hn, rfl⟩
  have hpf := p2_pos (-f)
  have hn1 : ((2 ^ k : ℤ) : ℚ) ≤ n := by rw [abs_of_pos hpos] at hn0; exact_mod_cast hn0
  have hx1 : p2 (-f + k) ≤ n * p2 (-f) := by
    rw [p2_add, p2_natCast, mul_comm (p2 (-f))]
    exact mul_le_mul_of_nonneg_right hn1 hpf.le
  have hxpos : 0 < (n : ℚ) * p2 (-f) := mul_pos (by exact_mod_cast hpos) hpf
  obtain ⟨K, hk⟩ := hx.grid
  obtain ⟨hl1, hl2⟩ := log_bounds hxpos.ne'
  set x := (n : ℚ) * p2 (-f) with hxdef
  rw [abs_of_pos hxpos] at hl1 hl2 hk
  set L := Int.log 2 x with hL
  have hLf : -f + k ≤ L := by
    have : p2 (-f + k) < p2 (L + 1) := lt_of_le_of_lt hx1 hl2
    have := lt_of_p2_lt this
    omega
  have ht2 : |t| ≤ p2 (L - 25) := le_trans ht (p2_le_p2 (by omega))
  have ht3 := abs_le.mp ht2
  have hp1 : p2 (L - 24) = 2 * p2 (L - 25) := by rw [← p2_succ]; congr 1; ring
  have hp2' : p2 (L - 23) = 4 * p2 (L - 25) := by
    rw [show L - 23 = L - 24 + 1 by ring, p2_succ, hp1]; ring
  have hp0 := p2_pos (L - 25)
  have hpL : p2 L = 2 ^ 23 * p2 (L - 23) := by
    rw [show L = ((23 : ℕ) : ℤ) + (L - 23) by push_cast; ring, p2_add, p2_natCast]
    push_cast; ring_nf
  have hk1 : 2 ^ 23 ≤ K := by
    have : (2 ^ 23 : ℚ) * p2 (L - 23) ≤ K * p2 (L - 23) := by rw [← hpL, ← hk]; exact hl1
    have := le_of_mul_le_mul_right this (p2_pos _)
    exact_mod_cast this
  have hk2 : K < 2 ^ 24 := by
    have : (K : ℚ) * p2 (L - 23) < 2 ^ 24 * p2 (L - 23) := by
      rw [← hk]; refine lt_of_lt_of_eq hl2 ?_; rw [p2_succ, hpL]; ring
    have := lt_of_mul_lt_mul_right this (p2_pos _).le
    exact_mod_cast this
  by_cases hc : p2 L ≤ x + t
  · have hlog : Int.log 2 |x + t| = L := by
      have hpos' : 0 < x + t := lt_of_lt_of_le (p2_pos L) hc
      apply log_eq
      · rw [abs_of_pos hpos']; exact hc
      · rw [abs_of_pos hpos', p2_succ, hpL, hk]
        have : (K : ℚ) ≤ 2 ^ 24 - 1 := by
          have : K ≤ 2 ^ 24 - 1 := by omega
          exact_mod_cast this
        nlinarith [p2_pos (L - 23)]
    have hne : x + t ≠ 0 := (lt_of_lt_of_le (p2_pos L) hc).ne'
    unfold fl32
    rw [if_neg hne, hlog]
    have : (x + t) * p2 (-(L - 23)) = (K : ℚ) + t * p2 (-(L - 23)) := by
      rw [add_mul, hk, mul_assoc, p2_mul_neg, mul_one]
    dsimp only
    rw [this, tfRound_near, ← hk]
    rw [abs_mul, abs_of_pos (p2_pos _)]
    calc |t| * p2 (-(L - 23)) ≤ p2 (L - 25) * p2 (-(L - 23)) := mul_le_mul_of_nonneg_right ht2 (p2_pos _).le
      _ = p2 (-2) := by rw [← p2_add]; congr 1; ring
      _ < 1 / 2 := by unfold p2; norm_num
  · push Not at hc
    -- x is a power of two
    have hkk : K = 2 ^ 23 := by
      by_contra hne
      have : (2 ^ 23 + 1 : ℚ) ≤ K := by
        have : 2 ^ 23 + 1 ≤ K := by omega
        exact_mod_cast this
      rw [hpL, hk] at hc
      nlinarith [p2_pos (L - 23)]
    have hxL : x = p2 L := by rw [hk, hkk, hpL]; push_cast; ring
    have hlog : Int.log 2 |x + t| = L - 1 := by
      have hge : p2 (L - 1) ≤ x + t := by
        have : p2 L = 2 * p2 (L - 1) := by rw [← p2_succ]; congr 1; ring
        have h2 : p2 (L - 25) ≤ p2 (L - 1) := p2_le_p2 (by omega)
        rw [hxL]; linarith
      have hpos' : 0 < x + t := lt_of_lt_of_le (p2_pos _) hge
      apply log_eq
      · rw [abs_of_pos hpos']; exact hge
      · rw [abs_of_pos hpos', sub_add_cancel]; exact hc
    have hne : x + t ≠ 0 := by
      intro h0
      have : p2 L = 2 * p2 (L - 1) := by rw [← p2_succ]; congr 1; ring
      have h2 : p2 (L - 25) ≤ p2 (L - 1) := p2_le_p2 (by omega)
      have := p2_pos (L - 1)
      rw [hxL] at h0; linarith
    unfold fl32
    rw [if_neg hne, hlog]
    have h24 : p2 L * p2 (-(L - 1 - 23)) = ((2 ^ 24 : ℤ) : ℚ) := by
      rw [← p2_add, show L + -(L - 1 - 23) = ((24 : ℕ) : ℤ) by push_cast; ring, p2_natCast]
    have : (x + t) * p2 (-(L - 1 - 23)) = ((2 ^ 24 : ℤ) : ℚ) + t * p2 (-(L - 1 - 23)) := by
      rw [add_mul, hxL, h24]
    dsimp only
    rw [this, tfRound_even_tie (by norm_num), ← h24, mul_assoc, p2_neg_mul, mul_one, hxL]
    rw [abs_mul, abs_of_pos (p2_pos _)]
    calc |t| * p2 (-(L - 1 - 23)) ≤ p2 (L - 25) * p2 (-(L - 1 - 23)) := mul_le_mul_of_nonneg_right ht2 (p2_pos _).le
      _ = p2 (-1) := by rw [← p2_add]; congr 1; ring
      _ ≤ 1 / 2 := by unfold p2; norm_num

/-- the same without a lower bound on the multiple -/
theorem fl32_absorb {n f : ℤ} {t : ℚ} (hn0 : n ≠ 0) (hn : |n| < 2 ^ 24) (ht : |t| ≤ p2 (-f - 25)) :
    fl32 (n * p2 (-f) + t) = n * p2 (-f) :=
  fl32_absorb_large 0 (by rw [pow_zero]; exact Int.one_le_abs hn0) hn (by simpa using ht)

end HGQ
