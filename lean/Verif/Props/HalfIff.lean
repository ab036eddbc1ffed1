import Verif.Props.Float32

/-!
C57, exactly: which float32 inputs are quantized to another value than in exact arithmetic.
-/

namespace Spec

/-- The formats in which one unit too much, or one unit too little, is seen. `up`: the value 1 (in units) is not stored as 0; it is stored as 1, or
wraps around if the only bit is the sign. `down`: the value -1 is not stored as 0: signed formats, except symmetric ones without bits for the
magnitude, and unsigned ones that wrap around. -/
def upSeen (k b : ℤ) (S : HGQ.Sat) : Prop := k < b ∨ b = k ∧ S = .WRAP

def downSeen (k b : ℤ) (S : HGQ.Sat) : Prop := if k = 1 then 1 < b ∨ S ≠ .SAT_SYM else S = .WRAP

end Spec

namespace HGQ

open Spec (IsFloat32)

theorem floorMod_val (n : ℤ) {a m : ℚ} (hm : 0 < m) (h1 : n * m ≤ a) (h2 : a < (n + 1) * m) : floorMod a m = a - n * m := by
  unfold floorMod
  have : ⌊a / m⌋ = n := by
    rw [Int.floor_eq_iff, le_div_iff₀ hm, div_lt_iff₀ hm]
    exact ⟨h1, h2⟩
  rw [this]

theorem satMap_zero' (S : Sat) {k b : ℤ} (hk : k = 0 ∨ k = 1) (hb : 1 ≤ b) : satMap S 0 k b = 0 := by
  have hP : 1 ≤ p2 (b - k) := by
    have := p2_le_p2 (a := 0) (b := b - k) (by omega)
    rwa [p2_zero] at this
  have hP2 : k = 0 → 2 ≤ p2 (b - k) := fun h => by
    have := p2_le_p2 (a := 1) (b := b - k) (by omega)
    rwa [p2_one] at this
  rcases hk with rfl | rfl <;> cases S <;> simp only [satMap, satSAT, satZERO, satSYM, satWRAP, satWRAPSM] <;>
    generalize p2 _ = P at * <;> push_cast
  · have := hP2 rfl
    simp [clipByValue, hP]
  · simp
  · simp [clipByValue, hP]
  · rw [floorMod_val 0 (by linarith) (by push_cast; linarith) (by push_cast; linarith)]; push_cast; ring
  · rw [floorMod_val (-1) (by linarith) (by push_cast; linarith) (by push_cast; linarith), abs_of_nonneg (by push_cast; linarith)]; push_cast; ring
  · rw [clipByValue, min_eq_left (by linarith), max_eq_left (by linarith)]
  · simp
  · rw [clipByValue, min_eq_left (by linarith), max_eq_left (by linarith)]
  · rw [floorMod_val 0 (by linarith) (by push_cast; linarith) (by push_cast; linarith)]; push_cast; ring
  · rw [floorMod_val (-1) (by linarith) (by push_cast; linarith) (by push_cast; linarith), abs_of_nonneg (by push_cast; linarith)]; push_cast; ring

theorem satMap_one (S : Sat) {k b : ℤ} (hk : k = 0 ∨ k = 1) (hb : 1 ≤ b) : satMap S 1 k b = 0 ↔ ¬ Spec.upSeen k b S := by
  unfold Spec.upSeen
  by_cases hlt : k < b
  · have hP : 2 ≤ p2 (b - k) := by
      have := p2_le_p2 (a := 1) (b := b - k) (by omega)
      rwa [p2_one] at this
    have : satMap S 1 k b = 1 := by
      rcases hk with rfl | rfl <;> cases S <;> simp only [satMap, satSAT, satZERO, satSYM, satWRAP, satWRAPSM] <;>
        generalize p2 _ = P at * <;> push_cast
      · rw [clipByValue, min_eq_left (by linarith), max_eq_left (by linarith)]
      · rw [if_pos ⟨by linarith, by linarith⟩, mul_one]
      · rw [clipByValue, min_eq_left (by linarith), max_eq_left (by linarith)]
      · rw [floorMod_val 0 (by linarith) (by push_cast; linarith) (by push_cast; linarith)]; push_cast; ring
      · rw [floorMod_val (-1) (by linarith) (by push_cast; linarith) (by push_cast; linarith), abs_of_nonneg (by push_cast; linarith)]; push_cast; ring
      · rw [clipByValue, min_eq_left (by linarith), max_eq_left (by linarith)]
      · rw [if_pos ⟨by linarith, by linarith⟩, mul_one]
      · rw [clipByValue, min_eq_left (by linarith), max_eq_left (by linarith)]
      · rw [floorMod_val 0 (by linarith) (by push_cast; linarith) (by push_cast; linarith)]; push_cast; ring
      · rw [floorMod_val (-1) (by linarith) (by push_cast; linarith) (by push_cast; linarith), abs_of_nonneg (by push_cast; linarith)]; push_cast; ring
    rw [this]
    simp [hlt]
  · obtain rfl : k = 1 := by omega
    obtain rfl : b = 1 := by omega
    cases S <;> decide +kernel

theorem satMap_neg_one (S : Sat) {k b : ℤ} (hk : k = 0 ∨ k = 1) (hb : 1 ≤ b) : satMap S (-1) k b = 0 ↔ ¬ Spec.downSeen k b S := by
  unfold Spec.downSeen
  rcases hk with rfl | rfl
  · rw [if_neg (by norm_num)]
    have hP : 2 ≤ p2 (b - 0) := by
      have := p2_le_p2 (a := 1) (b := b - 0) (by omega)
      rwa [p2_one] at this
    cases S <;> simp only [satMap, satSAT, satZERO, satSYM, satWRAP, satWRAPSM] <;> generalize p2 _ = P at * <;> push_cast
    · rw [clipByValue, min_eq_left (by linarith), max_eq_right (by linarith)]; simp
    · rw [if_neg (by intro h; linarith [h.2])]; simp
    · rw [clipByValue, min_eq_left (by linarith), max_eq_right (by linarith)]; simp
    · rw [floorMod_val (-1) (by linarith) (by push_cast; linarith) (by push_cast; linarith)]
      push_cast
      constructor
      · intro h; linarith
      · intro h; exact absurd trivial h
    · rw [floorMod_val (-1) (by linarith) (by push_cast; linarith) (by push_cast; linarith)]
      push_cast
      rw [show -1 - (P - 1) - 1 - -1 * ((P - 1 - -(P - 1 + 1) * 0 + 1) * 2) - (P - 1 - -(P - 1 + 1) * 0 + 1) * 2 / 2 + 1 / 2 = (-(1 / 2) : ℚ) by ring]
      norm_num
  · rw [if_pos rfl]
    by_cases h1 : b = 1
    · subst h1
      cases S <;> decide +kernel
    · have hP : 2 ≤ p2 (b - 1) := by
        have := p2_le_p2 (a := 1) (b := b - 1) (by omega)
        rwa [p2_one] at this
      have : satMap S (-1) 1 b = -1 := by
        cases S <;> simp only [satMap, satSAT, satZERO, satSYM, satWRAP, satWRAPSM] <;> generalize p2 _ = P at * <;> push_cast
        · rw [clipByValue, min_eq_left (by linarith), max_eq_left (by linarith)]
        · rw [if_pos ⟨by linarith, by linarith⟩, mul_one]
        · rw [clipByValue, min_eq_left (by linarith), max_eq_left (by linarith)]
        · rw [floorMod_val 0 (by linarith) (by push_cast; linarith) (by push_cast; linarith)]; push_cast; ring
        · rw [floorMod_val (-1) (by linarith) (by push_cast; linarith) (by push_cast; linarith), abs_of_nonneg (by push_cast; linarith)]; push_cast; ring
      rw [this]
      simp only [neg_eq_zero, one_ne_zero, false_iff, not_not]
      exact .inl (by omega)

/-- **C57**, exactly, fixed-point quantizers of up to 22 bits and inputs below 2^22 units, all rounding and overflow modes: float32 and exact
arithmetic differ only at the largest number below half a unit, in the rounding modes that add half a unit on this side, and there exactly in the
formats in which one unit more (or less) is seen. -/
theorem C57_fixed_point_iff (x : ℚ) (hx : IsFloat32 x) (k b i : ℤ) (hk : k = 0 ∨ k = 1) (hb0 : 0 ≤ b) (hb : b ≤ 22)
    (R : Rnd) (S : Sat) (hrange : |x * (2 : ℚ) ^ (b - i)| < 2 ^ 22) :
    gfixedQuantizerF fl32 x k b i R S ≠ gfixedQuantizer x k b i R S ↔
      b ≠ 0 ∧ ((R = .RND ∨ R = .RND_INF) ∧ x * (2 : ℚ) ^ (b - i) = 1 / 2 - 1 / 2 ^ 25 ∧ Spec.upSeen k b S ∨
        (R = .RND_MIN_INF ∨ R = .RND_INF) ∧ x * (2 : ℚ) ^ (b - i) = -(1 / 2 - 1 / 2 ^ 25) ∧ Spec.downSeen k b S) := by
  have hval : badHalf = 1 / 2 - 1 / 2 ^ 25 := by unfold badHalf p2; norm_num
  have hbf : IsFloat32 badHalf := ⟨2 ^ 24 - 1, -25, by norm_num, by unfold badHalf p2; norm_num⟩
  have hs := hx.mul_p2 (b - i)
  by_cases hb1 : b = 0
  · have e1 : gfixedQuantizer x k b i R S = 0 := by unfold gfixedQuantizer; simp [hb1]
    have e2 : gfixedQuantizerF fl32 x k b i R S = 0 := by unfold gfixedQuantizerF; simp [hb1, fl32_zero]
    rw [e1, e2]
    exact iff_of_false (not_not.mpr rfl) fun h => h.1 hb1
  have hb1' : 1 ≤ b := by omega
  have hp := p2_pos (-(b - i))
  -- the results of the two computations from the rounded value
  have ex : ∀ r, rndMap R (x * p2 (b - i)) = r → gfixedQuantizer x k b i R S = satMap S r k b * p2 (-(b - i)) := by
    intro r hr
    unfold gfixedQuantizer
    dsimp only
    rw [hr, if_pos hb1, mul_one, div_p2]
  have fx : ∀ n : ℤ, |(n : ℚ)| ≤ 2 ^ 22 → rndMapF fl32 R (x * p2 (b - i)) = n →
      gfixedQuantizerF fl32 x k b i R S = satMap S n k b * p2 (-(b - i)) := by
    intro n hn hr
    unfold gfixedQuantizerF
    dsimp only
    obtain ⟨he, hH, hbd⟩ := satMap32_eq S (r := (n : ℚ)) ⟨n, rfl⟩ hn hk hb0 hb
    have hq := (isFloat32_half hH hbd).mul_p2 (-(b - i))
    rw [hs.fl, hr, he, if_pos hb1, mul_one, div_p2, hq.fl, hq.fl]
  have up1 : fl32 (badHalf + 1 / 2) = 1 := by rw [hval]; decide +kernel
  have f1 : flr (1 : ℚ) = 1 := by norm_num [flr]
  have f0 : flr (badHalf + 1 / 2) = 0 := flr_eq_iff.mpr (by rw [hval]; constructor <;> norm_num)
  have pos : 0 < badHalf := by rw [hval]; norm_num
  have sp : tfSign badHalf = 1 := by unfold tfSign; rw [if_pos pos]
  have sn : tfSign (-badHalf) = -1 := by unfold tfSign; rw [if_neg (by linarith), if_pos (by linarith)]
  -- one unit up
  have upc : (R = .RND ∨ R = .RND_INF) → x * p2 (b - i) = badHalf →
      (gfixedQuantizerF fl32 x k b i R S ≠ gfixedQuantizer x k b i R S ↔ Spec.upSeen k b S) := by
    intro hR he
    have r0 : rndMap R (x * p2 (b - i)) = 0 := by
      rw [he]
      rcases hR with rfl | rfl
      · simp [rndMap, rndRND, f0, -one_div]
      · simp [rndMap, rndINF, abs_of_pos pos, f0, -one_div]
    have r1 : rndMapF fl32 R (x * p2 (b - i)) = ((1 : ℤ) : ℚ) := by
      rw [he]
      rcases hR with rfl | rfl
      · simp only [rndMapF, up1, f1]
      · simp only [rndMapF, abs_of_pos pos, up1, f1, sp, mul_one]
        exact (isFloat32_int 1 (by norm_num)).fl
    rw [ex 0 r0, fx 1 (by norm_num) r1, satMap_zero' S hk hb1', zero_mul, Int.cast_one, ne_eq, mul_eq_zero, or_iff_left hp.ne', satMap_one S hk hb1', not_not]
  -- one unit down
  have dnc : (R = .RND_MIN_INF ∨ R = .RND_INF) → x * p2 (b - i) = -badHalf →
      (gfixedQuantizerF fl32 x k b i R S ≠ gfixedQuantizer x k b i R S ↔ Spec.downSeen k b S) := by
    intro hR he
    have r0 : rndMap R (x * p2 (b - i)) = 0 := by
      rw [he]
      rcases hR with rfl | rfl
      · simp [rndMap, rndMININF, f0, -one_div]
      · simp [rndMap, rndINF, abs_of_pos pos, f0, -one_div]
    have r1 : rndMapF fl32 R (x * p2 (b - i)) = ((-1 : ℤ) : ℚ) := by
      rw [he]
      rcases hR with rfl | rfl
      · simp only [rndMapF, neg_neg, up1, f1]
        norm_num
      · simp only [rndMapF, abs_neg, abs_of_pos pos, up1, f1, sn]
        rw [show ((1 : ℤ) : ℚ) * -1 = ((-1 : ℤ) : ℚ) by norm_num]
        exact (isFloat32_int (-1) (by norm_num)).fl
    rw [ex 0 r0, fx (-1) (by norm_num) r1, satMap_zero' S hk hb1', zero_mul, Int.cast_neg, Int.cast_one, ne_eq, mul_eq_zero, or_iff_left hp.ne',
      satMap_neg_one S hk hb1', not_not]
  change _ ↔ b ≠ 0 ∧ ((R = .RND ∨ R = .RND_INF) ∧ x * p2 (b - i) = _ ∧ Spec.upSeen k b S ∨
        (R = .RND_MIN_INF ∨ R = .RND_INF) ∧ x * p2 (b - i) = _ ∧ Spec.downSeen k b S)
  rw [← hval]
  by_cases hu : (R = .RND ∨ R = .RND_INF) ∧ x * p2 (b - i) = badHalf
  · rw [upc hu.1 hu.2]
    constructor
    · exact fun h => ⟨hb1, .inl ⟨hu.1, hu.2, h⟩⟩
    · rintro ⟨-, ⟨-, -, h⟩ | ⟨-, h, -⟩⟩
      · exact h
      · rw [hu.2] at h; linarith
  by_cases hd : (R = .RND_MIN_INF ∨ R = .RND_INF) ∧ x * p2 (b - i) = -badHalf
  · rw [dnc hd.1 hd.2]
    constructor
    · exact fun h => ⟨hb1, .inr ⟨hd.1, hd.2, h⟩⟩
    · rintro ⟨-, ⟨-, h, -⟩ | ⟨-, -, h⟩⟩
      · rw [hd.2] at h; linarith
      · exact h
  refine iff_of_false (not_not.mpr ?_) ?_
  · refine C57_fixed_point_partial x hx k b i hk hb0 hb R S hrange ?_ ?_ ?_ <;> rw [← hval]
    · exact fun hR he => hu ⟨.inl hR, he⟩
    · exact fun hR he => hd ⟨.inl hR, he⟩
    · intro hR he
      rcases abs_choice (x * (2 : ℚ) ^ (b - i)) with h | h <;> rw [h] at he
      · exact hu ⟨.inr hR, he⟩
      · exact hd ⟨.inr hR, by rw [← he, neg_neg]; rfl⟩
  · rintro ⟨-, ⟨h1, h2, -⟩ | ⟨h1, h2, -⟩⟩
    · exact hu ⟨h1, h2⟩
    · exact hd ⟨h1, h2⟩

/-- **C57**, exactly, the quantizers of the layers and inputs below 2^23 units: float32 and exact arithmetic differ exactly at the largest number below
half a unit, unless the strategy is floor. -/
theorem C57_round_iff (strategy : ℤ) (fbw x : ℚ) (hx : IsFloat32 x) (hrange : |x * (2 : ℚ) ^ tfRound fbw| < 2 ^ 23) :
    evalQF fl32 strategy fbw x ≠ evalQ strategy fbw x ↔ strategy ≠ 3 ∧ x * (2 : ℚ) ^ tfRound fbw = 1 / 2 - 1 / 2 ^ 25 := by
  by_cases h3 : strategy = 3
  · subst h3
    simp [C57_floor fbw x hx]
  · by_cases hbad : x * (2 : ℚ) ^ tfRound fbw = 1 / 2 - 1 / 2 ^ 25
    · have hxe : x = (1 / 2 - 1 / 2 ^ 25 : ℚ) * (2 : ℚ) ^ (-tfRound fbw) := by
        rw [← hbad]
        change x = x * p2 _ * p2 _
        rw [mul_assoc, p2_mul_neg, mul_one]
      obtain ⟨-, h1, h2⟩ := C57_round_just_below_half strategy h3 fbw
      rw [← hxe] at h1 h2
      rw [h1, h2]
      exact iff_of_true (p2_pos _).ne' ⟨h3, hbad⟩
    · exact iff_of_false (not_not.mpr (C57_round_partial strategy h3 fbw x hx hrange hbad)) fun h => hbad h.2

-- both conditions are met: a signed format in the mode RND_INF, and an unsigned saturating one, in which one unit less is not seen
example : gfixedQuantizerF fl32 (-(1 / 2 - 1 / 2 ^ 25)) 1 4 4 .RND_INF .SAT = -1 ∧ gfixedQuantizer (-(1 / 2 - 1 / 2 ^ 25)) 1 4 4 .RND_INF .SAT = 0 ∧
    gfixedQuantizerF fl32 (-(1 / 2 - 1 / 2 ^ 25)) 0 4 4 .RND_INF .SAT = 0 := by decide +kernel

end HGQ
