import Verif.Model.FixedPoint
import Verif.Spec.ApFixed
import Mathlib.Tactic.Ring
import Mathlib.Tactic.Linarith
import Mathlib.Tactic.FieldSimp
import Mathlib.Tactic.NormNum
import Mathlib.Tactic.Positivity
import Mathlib.Tactic.Push

namespace HGQ

theorem toInt_true : true.toInt = 1 := rfl
theorem toInt_false : false.toInt = 0 := rfl

theorem zpow2_pos (n : ℤ) : (0 : ℚ) < (2 : ℚ) ^ n := zpow_pos (by norm_num) n

theorem p2_pos (n : ℤ) : 0 < p2 n := by exact zpow_pos (by norm_num) n

theorem p2_ne (n : ℤ) : p2 n ≠ 0 := (p2_pos n).ne'

theorem p2_add (a b : ℤ) : p2 (a + b) = p2 a * p2 b := by
  unfold p2; exact zpow_add₀ (by norm_num) a b

theorem p2_zero : p2 0 = 1 := by unfold p2; norm_num

theorem p2_one : p2 1 = 2 := by unfold p2; norm_num

theorem p2_neg_mul (a : ℤ) : p2 (-a) * p2 a = 1 := by
  rw [← p2_add]; simp [p2_zero]

theorem p2_mul_neg (a : ℤ) : p2 a * p2 (-a) = 1 := by
  rw [← p2_add]; simp [p2_zero]

theorem div_p2 (x : ℚ) (a : ℤ) : x / p2 a = x * p2 (-a) := by
  unfold p2; rw [zpow_neg, div_eq_mul_inv]

theorem p2_succ (a : ℤ) : p2 (a + 1) = 2 * p2 a := by
  rw [p2_add, p2_one]; ring

theorem p2_neg_pred (a : ℤ) : p2 (-a - 1) = p2 (-a) / 2 := by
  have h := p2_succ (-a - 1)
  have : -a - 1 + 1 = -a := by ring
  rw [this] at h
  rw [h]; ring

theorem p2_le_p2 {a b : ℤ} (h : a ≤ b) : p2 a ≤ p2 b := by
  unfold p2; exact zpow_le_zpow_right₀ (by norm_num) h

theorem p2_lt_p2 {a b : ℤ} (h : a < b) : p2 a < p2 b := by
  unfold p2; exact zpow_lt_zpow_right₀ (by norm_num) h

theorem le_of_p2_le {a b : ℤ} (h : p2 a ≤ p2 b) : a ≤ b := by
  by_contra hc; push Not at hc
  exact absurd (p2_lt_p2 hc) (not_lt.mpr h)

theorem lt_of_p2_lt {a b : ℤ} (h : p2 a < p2 b) : a < b := by
  by_contra hc; push Not at hc
  exact absurd (p2_le_p2 hc) (not_le.mpr h)

theorem p2_natCast (n : ℕ) : p2 (n : ℤ) = ((2 ^ n : ℤ) : ℚ) := by
  unfold p2; push_cast; exact zpow_natCast 2 n

/-- non-negative powers of two are integers -/
theorem p2_int_of_nonneg {a : ℤ} (h : 0 ≤ a) : ∃ n : ℤ, p2 a = n ∧ 0 < n := by
  obtain ⟨m, rfl⟩ := Int.eq_ofNat_of_zero_le h
  exact ⟨2 ^ m, p2_natCast m, by positivity⟩

theorem floorMod_int (a : ℤ) (m : ℤ) (hm : 0 < m) :
    floorMod (a : ℚ) (m : ℚ) = ((a % m : ℤ) : ℚ) := by
  unfold floorMod
  obtain ⟨d, rfl⟩ := Int.eq_ofNat_of_zero_le hm.le
  have : ⌊(a : ℚ) / ((d : ℤ) : ℚ)⌋ = a / (d : ℤ) := by
    simpa using Rat.floor_intCast_div_natCast a d
  rw [this, Int.emod_def]; push_cast; ring

/-! ### Range form of the bit-pattern specification -/

/-- least integer with `w ≥ 1` bits -/
def lowB (s : Bool) (w : ℕ) : ℤ := if s then -2 ^ (w - 1) else 0

/-- greatest integer with `w ≥ 1` bits -/
def highB (s : Bool) (w : ℕ) : ℤ := if s then 2 ^ (w - 1) - 1 else 2 ^ w - 1

theorem highB_sub_lowB (s : Bool) {w : ℕ} (hw : 1 ≤ w) : highB s w - lowB s w + 1 = 2 ^ w := by
  obtain ⟨v, rfl⟩ : ∃ v, w = v + 1 := ⟨w - 1, by omega⟩
  cases s <;> simp [highB, lowB, pow_succ]
  ring

theorem lowB_nonpos (s : Bool) (w : ℕ) : lowB s w ≤ 0 := by
  cases s <;> simp [lowB]

theorem highB_nonneg (s : Bool) (w : ℕ) : 0 ≤ highB s w := by
  cases s
  · have : (1 : ℤ) ≤ 2 ^ w := by exact_mod_cast Nat.one_le_two_pow
    simp [highB]; omega
  · have : (1 : ℤ) ≤ 2 ^ (w - 1) := by exact_mod_cast Nat.one_le_two_pow
    simp [highB]; omega

theorem truncateBits_congr (s : Bool) (w : ℕ) (n : ℤ) :
    (2 ^ w : ℤ) ∣ n - Spec.truncateBits s w n := by
  unfold Spec.truncateBits Spec.readBits
  cases s
  · simp only [Bool.false_eq_true, if_false, BitVec.toNat_ofInt]
    have h : 0 ≤ n % ((2 ^ w : ℕ) : ℤ) := Int.emod_nonneg _ (by positivity)
    rw [Int.toNat_of_nonneg h]
    push_cast
    exact Int.dvd_self_sub_emod
  · simp only [if_true, BitVec.toInt_ofInt]
    have := Int.dvd_self_sub_bmod (x := n) (m := 2 ^ w)
    push_cast at this
    exact this

theorem readBits_range (s : Bool) {w : ℕ} (_hw : 1 ≤ w) (v : BitVec w) :
    lowB s w ≤ Spec.readBits s v ∧ Spec.readBits s v ≤ highB s w := by
  unfold Spec.readBits lowB highB
  cases s
  · simp only [Bool.false_eq_true, if_false]
    have := v.isLt
    refine ⟨by positivity, ?_⟩
    have h2 : (v.toNat : ℤ) < 2 ^ w := by exact_mod_cast this
    omega
  · simp only [if_true]
    have h1 := BitVec.le_toInt v
    have h2 := BitVec.toInt_lt (x := v)
    omega

theorem truncateBits_range (s : Bool) {w : ℕ} (hw : 1 ≤ w) (n : ℤ) :
    lowB s w ≤ Spec.truncateBits s w n ∧ Spec.truncateBits s w n ≤ highB s w :=
  readBits_range s hw _

/-- the unique integer in range congruent to `n` -/
theorem eq_truncateBits {s : Bool} {w : ℕ} (hw : 1 ≤ w) {n m : ℤ} (h1 : lowB s w ≤ m)
    (h2 : m ≤ highB s w) (hd : (2 ^ w : ℤ) ∣ n - m) : m = Spec.truncateBits s w n := by
  obtain ⟨t1, t2⟩ := truncateBits_range s hw n
  have hd2 := truncateBits_congr s w n
  have hsub : (2 ^ w : ℤ) ∣ m - Spec.truncateBits s w n := by
    have := dvd_sub hd2 hd
    have e : n - Spec.truncateBits s w n - (n - m) = m - Spec.truncateBits s w n := by ring
    rwa [e] at this
  have hw' := highB_sub_lowB s hw
  have : m - Spec.truncateBits s w n = 0 := by
    apply Int.eq_zero_of_abs_lt_dvd hsub
    rw [abs_lt]; constructor <;> omega
  omega

theorem truncateBits_of_range {s : Bool} {w : ℕ} (hw : 1 ≤ w) {n : ℤ} (h1 : lowB s w ≤ n)
    (h2 : n ≤ highB s w) : Spec.truncateBits s w n = n :=
  (eq_truncateBits hw h1 h2 (by simp)).symm

theorem isApFixed_iff {s : Bool} {w : ℕ} (hw : 1 ≤ w) (i : ℤ) (y : ℚ) :
    Spec.IsApFixed s w i y ↔
      ∃ n : ℤ, y = n * p2 (i - w) ∧ lowB s w ≤ n ∧ n ≤ highB s w := by
  constructor
  · rintro ⟨v, rfl⟩
    exact ⟨_, rfl, readBits_range s hw v⟩
  · rintro ⟨n, rfl, h1, h2⟩
    refine ⟨BitVec.ofInt w n, ?_⟩
    have := truncateBits_of_range hw h1 h2
    unfold Spec.truncateBits at this
    rw [this]; rfl

theorem isApFixed_zero_width (s : Bool) (i : ℤ) (y : ℚ) :
    Spec.IsApFixed s 0 i y ↔ y = 0 := by
  constructor
  · rintro ⟨v, rfl⟩
    have : v = 0#0 := Subsingleton.elim _ _
    subst this
    cases s <;> simp [Spec.readBits]
  · rintro rfl
    refine ⟨0#0, ?_⟩
    cases s <;> simp [Spec.readBits]

theorem isApFixed_zero (s : Bool) (w : ℕ) (i : ℤ) : Spec.IsApFixed s w i 0 := by
  refine ⟨0#w, ?_⟩
  cases s <;> simp [Spec.readBits]

/-! ### The bounds computed by the code -/

theorem code_high (s : Bool) {w : ℕ} (hw : 1 ≤ w) :
    p2 ((w : ℤ) - s.toInt) - 1 = (highB s w : ℚ) := by
  cases s
  · have : ((w : ℤ) - false.toInt) = w := by simp [Bool.toInt]
    rw [this, p2_natCast]; simp [highB]
  · have : ((w : ℤ) - true.toInt) = ((w - 1 : ℕ) : ℤ) := by simp [Bool.toInt]; omega
    rw [this, p2_natCast]; simp [highB]

theorem code_low (s : Bool) {w : ℕ} (hw : 1 ≤ w) :
    -((highB s w : ℚ) + 1) * ((s.toInt : ℤ) : ℚ) = (lowB s w : ℚ) := by
  have := hw
  cases s <;> simp [Bool.toInt, lowB, highB]

/-- the order of the two clamps only matters when the bounds are crossed -/
theorem clipByValue_eq {lo hi : ℚ} (h : lo ≤ hi) (x : ℚ) : clipByValue x lo hi = min (max x lo) hi := by
  unfold clipByValue
  rcases le_total x hi with h1 | h1
  · rw [min_eq_left h1, min_eq_left (max_le h1 h)]
  · rw [min_eq_right h1, max_eq_left h, min_eq_right (le_max_of_le_left h1)]

theorem satSAT_int (s : Bool) {w : ℕ} (hw : 1 ≤ w) (n : ℤ) :
    satSAT n s.toInt w = ((min (max n (lowB s w)) (highB s w) : ℤ) : ℚ) := by
  unfold satSAT
  simp only [code_high s hw, code_low s hw]
  rw [clipByValue_eq (by exact_mod_cast (lowB_nonpos s w).trans (highB_nonneg s w))]
  push_cast; rfl

theorem satZERO_int (s : Bool) {w : ℕ} (hw : 1 ≤ w) (n : ℤ) :
    satZERO n s.toInt w = ((if n ≤ highB s w ∧ lowB s w ≤ n then n else 0 : ℤ) : ℚ) := by
  have hl : (-(highB s w : ℚ) - 1) * ((s.toInt : ℤ) : ℚ) = (lowB s w : ℚ) := by
    rw [← code_low s hw]; ring
  unfold satZERO
  simp only [hl, code_high s hw, Int.cast_le]
  split_ifs <;> simp

theorem satSYM_int (s : Bool) {w : ℕ} (hw : 1 ≤ w) (n : ℤ) :
    satSYM n s.toInt w
      = ((min (max n (-(highB s w) * s.toInt)) (highB s w) : ℤ) : ℚ) := by
  unfold satSYM
  simp only [code_high s hw]
  rw [clipByValue_eq]
  · push_cast; rfl
  · have h := highB_nonneg s w
    have h' : (0 : ℚ) ≤ highB s w := by exact_mod_cast h
    cases s <;> simp [Bool.toInt] <;> linarith

theorem satWRAP_int (s : Bool) {w : ℕ} (hw : 1 ≤ w) (n : ℤ) :
    satWRAP n s.toInt w = ((Spec.truncateBits s w n : ℤ) : ℚ) := by
  unfold satWRAP
  simp only [code_low s hw, code_high s hw]
  have hwid : ((highB s w : ℚ) - lowB s w + 1) = ((2 ^ w : ℤ) : ℚ) := by
    rw [← highB_sub_lowB s hw]; push_cast; ring
  rw [hwid]
  have : ((n : ℚ) - lowB s w) = ((n - lowB s w : ℤ) : ℚ) := by push_cast; ring
  rw [this, floorMod_int _ _ (by positivity)]
  have key : (n - lowB s w) % 2 ^ w + lowB s w = Spec.truncateBits s w n := by
    have hw' := highB_sub_lowB s hw
    have hpos : (0 : ℤ) < 2 ^ w := by positivity
    apply eq_truncateBits hw
    · have := Int.emod_nonneg (n - lowB s w) hpos.ne'; omega
    · have := Int.emod_lt_of_pos (n - lowB s w) hpos; omega
    · have := Int.dvd_self_sub_emod (x := n - lowB s w) (m := 2 ^ w)
      have e : n - ((n - lowB s w) % 2 ^ w + lowB s w)
          = n - lowB s w - (n - lowB s w) % 2 ^ w := by ring
      rw [e]; exact this
  rw [← key]; push_cast; ring

/-- The reflected integer computed by `WRAP_SM`. -/
def reflectB (s : Bool) (w : ℕ) (n : ℤ) : ℤ :=
  let m := (n - highB s w - 1) % (2 ^ w * 2)
  if m < 2 ^ w then 2 ^ w - 1 - m + lowB s w else m - 2 ^ w + lowB s w

theorem satWRAPSM_int (s : Bool) {w : ℕ} (hw : 1 ≤ w) (n : ℤ) :
    satWRAPSM n s.toInt w = ((reflectB s w n : ℤ) : ℚ) := by
  unfold satWRAPSM
  simp only [code_low s hw, code_high s hw]
  have hwid : ((highB s w : ℚ) - lowB s w + 1) = ((2 ^ w : ℤ) : ℚ) := by
    rw [← highB_sub_lowB s hw]; push_cast; ring
  rw [hwid]
  have e1 : ((n : ℚ) - highB s w - 1) = ((n - highB s w - 1 : ℤ) : ℚ) := by push_cast; ring
  have e2 : (((2 ^ w : ℤ) : ℚ) * 2) = ((2 ^ w * 2 : ℤ) : ℚ) := by push_cast; ring
  rw [e1, e2, floorMod_int _ _ (by positivity)]
  unfold reflectB
  simp only
  generalize (n - highB s w - 1) % (2 ^ w * 2) = m
  split_ifs with h
  · have h' : (m : ℚ) + 1 ≤ ((2 ^ w : ℤ) : ℚ) := by exact_mod_cast h
    have : (m : ℚ) - ((2 ^ w * 2 : ℤ) : ℚ) / 2 + 1 / 2 ≤ 0 := by
      push_cast at h' ⊢; linarith
    rw [abs_of_nonpos this]; push_cast; ring
  · push Not at h
    have h' : ((2 ^ w : ℤ) : ℚ) ≤ (m : ℚ) := by exact_mod_cast h
    have : 0 ≤ (m : ℚ) - ((2 ^ w * 2 : ℤ) : ℚ) / 2 + 1 / 2 := by
      push_cast at h' ⊢; linarith
    rw [abs_of_nonneg this]; push_cast; ring

theorem reflectB_range (s : Bool) {w : ℕ} (hw : 1 ≤ w) (n : ℤ) :
    lowB s w ≤ reflectB s w n ∧ reflectB s w n ≤ highB s w := by
  have hw' := highB_sub_lowB s hw
  have hp : (0 : ℤ) < 2 ^ w := by positivity
  have h1 := Int.emod_nonneg (n - highB s w - 1) (b := 2 ^ w * 2) (by positivity)
  have h2 := Int.emod_lt_of_pos (n - highB s w - 1) (b := 2 ^ w * 2) (by positivity)
  unfold reflectB
  simp only
  split_ifs <;> omega

theorem reflectB_of_range {s : Bool} {w : ℕ} (hw : 1 ≤ w) {n : ℤ} (h1 : lowB s w ≤ n)
    (h2 : n ≤ highB s w) : reflectB s w n = n := by
  have hw' := highB_sub_lowB s hw
  have hp : (0 : ℤ) < 2 ^ w := by positivity
  have : (n - highB s w - 1) % (2 ^ w * 2) = n - highB s w - 1 + 2 ^ w * 2 := by
    rw [← Int.add_emod_right]
    apply Int.emod_eq_of_lt <;> omega
  unfold reflectB
  simp only [this]
  split_ifs <;> omega

/-! ### Rounding modes give integers and fix integers -/

theorem tfSign_cases (x : ℚ) :
    (0 < x ∧ tfSign x = 1) ∨ (x < 0 ∧ tfSign x = -1) ∨ (x = 0 ∧ tfSign x = 0) := by
  unfold tfSign
  rcases lt_trichotomy x 0 with h | h | h
  · right; left; refine ⟨h, ?_⟩; rw [if_neg (by linarith), if_pos h]
  · right; right; subst h; simp
  · left; exact ⟨h, by rw [if_pos h]⟩

theorem tfSign_int (x : ℚ) : ∃ n : ℤ, tfSign x = n := by
  rcases tfSign_cases x with ⟨_, h⟩ | ⟨_, h⟩ | ⟨_, h⟩
  · exact ⟨1, by simp [h]⟩
  · exact ⟨-1, by simp [h]⟩
  · exact ⟨0, by simp [h]⟩

theorem rndMap_int (R : Rnd) (x : ℚ) : ∃ n : ℤ, rndMap R x = n := by
  obtain ⟨σ, hσ⟩ := tfSign_int x
  cases R
  · exact ⟨_, rfl⟩
  · exact ⟨_, rfl⟩
  · exact ⟨_, rfl⟩
  · exact ⟨flr |x| * σ, by simp [rndMap, rndTRNZERO, hσ]⟩
  · exact ⟨-(flr (-|x| + 1 / 2)) * σ, by simp [rndMap, rndZERO, hσ]⟩
  · exact ⟨-(flr (-x + 1 / 2)), by simp [rndMap, rndMININF]⟩
  · exact ⟨flr (|x| + 1 / 2) * σ, by simp [rndMap, rndINF, hσ]⟩

theorem flr_int_half (n : ℤ) : flr ((n : ℚ) + 1 / 2) = n := by
  unfold flr; rw [Int.floor_intCast_add]; norm_num

theorem flr_int (n : ℤ) : flr (n : ℚ) = n := by
  unfold flr; exact Int.floor_intCast n

theorem tfRound_int (n : ℤ) : tfRound (n : ℚ) = n := by
  unfold tfRound; simp

theorem int_abs_mul_sign (n : ℤ) : |(n : ℚ)| * tfSign n = n := by
  rcases tfSign_cases (n : ℚ) with ⟨h, e⟩ | ⟨h, e⟩ | ⟨h, e⟩
  · rw [e, abs_of_pos h]; ring
  · rw [e, abs_of_neg h]; ring
  · rw [e, h]; simp

theorem rndMap_fix (R : Rnd) (n : ℤ) : rndMap R (n : ℚ) = n := by
  have habs : |(n : ℚ)| = ((|n| : ℤ) : ℚ) := by push_cast; rfl
  cases R
  · simp [rndMap, rndTRN, flr_int]
  · simp only [rndMap, rndRND, flr_int_half]
  · simp [rndMap, rndCONV, tfRound_int]
  · simp only [rndMap, rndTRNZERO, habs, flr_int]
    rw [← habs]; exact int_abs_mul_sign n
  · simp only [rndMap, rndZERO, habs]
    have : -((|n| : ℤ) : ℚ) = ((-|n| : ℤ) : ℚ) := by push_cast; ring
    rw [this, flr_int_half]
    push_cast
    rw [neg_neg]; exact int_abs_mul_sign n
  · simp only [rndMap, rndMININF]
    have : -(n : ℚ) = ((-n : ℤ) : ℚ) := by push_cast; ring
    rw [this, flr_int_half]; push_cast; ring
  · simp only [rndMap, rndINF, habs, flr_int_half]
    rw [← habs]; exact int_abs_mul_sign n

/-- what any overflow mode does to a (rounded) integer: again an integer, in range, identity in
range except the lowest value under `SAT_SYM` -/
theorem satMap_int (S : Sat) (s : Bool) {w : ℕ} (hw : 1 ≤ w) (n : ℤ) :
    ∃ m : ℤ, satMap S n s.toInt w = m ∧ lowB s w ≤ m ∧ m ≤ highB s w := by
  have hw' := highB_sub_lowB s hw
  have hl := lowB_nonpos s w
  have hh := highB_nonneg s w
  have hp : (0 : ℤ) < 2 ^ w := by positivity
  cases S
  · exact ⟨_, satSAT_int s hw n, by omega, by omega⟩
  · refine ⟨_, satZERO_int s hw n, ?_, ?_⟩ <;> split_ifs <;> omega
  · refine ⟨_, satSYM_int s hw n, ?_, by omega⟩
    have : lowB s w ≤ -(highB s w) * s.toInt := by
      cases s <;> simp [lowB, highB, Bool.toInt]
    omega
  · exact ⟨_, satWRAP_int s hw n, truncateBits_range s hw n⟩
  · exact ⟨_, satWRAPSM_int s hw n, reflectB_range s hw n⟩

theorem satMap_of_range (S : Sat) (s : Bool) {w : ℕ} (hw : 1 ≤ w) {n : ℤ} (h1 : lowB s w ≤ n)
    (h2 : n ≤ highB s w) (hs : S = .SAT_SYM → s = true → n ≠ lowB s w) :
    satMap S n s.toInt w = n := by
  cases S
  · show satSAT n s.toInt w = n
    rw [satSAT_int s hw]; norm_cast; omega
  · show satZERO n s.toInt w = n
    rw [satZERO_int s hw, if_pos ⟨h2, h1⟩]
  · show satSYM n s.toInt w = n
    rw [satSYM_int s hw]
    have : -(highB s w) * s.toInt ≤ n := by
      cases s
      · simpa [Bool.toInt, lowB] using h1
      · have h3 := hs rfl rfl
        simp [Bool.toInt, lowB, highB] at *
        omega
    norm_cast; omega
  · show satWRAP n s.toInt w = n
    rw [satWRAP_int s hw, truncateBits_of_range hw h1 h2]
  · show satWRAPSM n s.toInt w = n
    rw [satWRAPSM_int s hw, reflectB_of_range hw h1 h2]

theorem gfixed_zero_bits (x : ℚ) (k i : ℤ) (R : Rnd) (S : Sat) :
    gfixedQuantizer x k 0 i R S = 0 := by
  unfold gfixedQuantizer; simp

theorem gfixed_pos_bits (x : ℚ) (k i : ℤ) (R : Rnd) (S : Sat) {b : ℤ} (hb : b ≠ 0) :
    gfixedQuantizer x k b i R S
      = satMap S (rndMap R (x * p2 (b - i))) k b * p2 (i - b) := by
  unfold gfixedQuantizer
  simp only [if_pos hb, mul_one, div_p2]
  congr 2; ring

end HGQ
