import Verif.Lemmas.Float32Ops
import Mathlib.Algebra.Order.BigOperators.Group.List

/-!
C57: the quantizers evaluated in float32. C58: sums of products evaluated in float32.

`Spec.IsFloat32 x`: `x` is a float32 number. `gfixedQuantizerF fl32` and `evalQF fl32` are the quantizers with every operation rounded to
float32, `gfixedQuantizer` and `evalQ` the same computations in exact arithmetic, about which the other properties are proved.
-/

namespace HGQ

open Spec (IsFloat32)

/-! ### C57 -/

/-- **C57**, fixed-point quantizers of up to 22 bits, all rounding and overflow modes, inputs below 2^22 units. The excluded inputs,
just below half a unit, are those of `C57_just_below_half`. -/
theorem C57_fixed_point_partial (x : ℚ) (hx : IsFloat32 x) (k b i : ℤ) (hk : k = 0 ∨ k = 1) (hb0 : 0 ≤ b) (hb : b ≤ 22)
    (R : Rnd) (S : Sat) (hrange : |x * (2 : ℚ) ^ (b - i)| < 2 ^ 22)
    (h1 : R = .RND → x * (2 : ℚ) ^ (b - i) ≠ 1 / 2 - 1 / 2 ^ 25)
    (h2 : R = .RND_MIN_INF → x * (2 : ℚ) ^ (b - i) ≠ -(1 / 2 - 1 / 2 ^ 25))
    (h3 : R = .RND_INF → |x * (2 : ℚ) ^ (b - i)| ≠ 1 / 2 - 1 / 2 ^ 25) :
    gfixedQuantizerF fl32 x k b i R S = gfixedQuantizer x k b i R S := by
  have hbad : badHalf = 1 / 2 - 1 / 2 ^ 25 := by unfold badHalf p2; norm_num
  rw [← hbad] at h1 h2 h3
  change |x * p2 (b - i)| < _ at hrange
  have hs := hx.mul_p2 (b - i)
  unfold gfixedQuantizerF gfixedQuantizer
  dsimp only
  rw [hs.fl, rndMap32_eq R hs (by linarith) h1 h2 h3]
  obtain ⟨he, hH, hbd⟩ := satMap32_eq S (rndMap_int R (x * p2 (b - i))) (rndMap_abs_le R hrange.le) hk hb0 hb
  rw [he, div_p2]
  have hq := (isFloat32_half hH hbd).mul_p2 (-(b - i))
  rw [hq.fl]
  split_ifs
  · rw [mul_one, hq.fl]
  · rw [mul_zero, fl32_zero]

/-- **C57** is violated by the code for the largest float32 number below half a unit: with the rounding mode RND it is rounded up to one
unit instead of down to zero, in every format of 2 to 22 bits and every overflow mode. -/
theorem C57_just_below_half (k b i : ℤ) (hk : k = 0 ∨ k = 1) (hb2 : 2 ≤ b) (hb : b ≤ 22) (S : Sat) :
    let x := (1 / 2 - 1 / 2 ^ 25 : ℚ) * (2 : ℚ) ^ (i - b)
    IsFloat32 x ∧ gfixedQuantizer x k b i .RND S = 0 ∧ gfixedQuantizerF fl32 x k b i .RND S = (2 : ℚ) ^ (i - b) := by
  intro x
  have hbad : (1 / 2 - 1 / 2 ^ 25 : ℚ) = badHalf := by unfold badHalf p2; norm_num
  have hbf : IsFloat32 badHalf := ⟨2 ^ 24 - 1, -25, by norm_num, by unfold badHalf p2; norm_num⟩
  have hxe : x = badHalf * p2 (i - b) := by rw [← hbad]; rfl
  have hx : IsFloat32 x := by rw [hxe]; exact hbf.mul_p2 _
  have hsc : x * p2 (b - i) = badHalf := by
    rw [hxe, mul_assoc, ← p2_add, show i - b + (b - i) = 0 by ring, p2_zero, mul_one]
  have hval : badHalf = 1 / 2 - 1 / 2 ^ 25 := hbad.symm
  obtain ⟨w, hw⟩ := Int.eq_ofNat_of_zero_le (show 0 ≤ b by omega)
  have hw' : b = (w : ℤ) := hw
  -- small integers pass all overflow modes
  have hpass : ∀ n : ℤ, 0 ≤ n → n ≤ 1 → satMap S (n : ℚ) k b = n := by
    intro n hn0 hn1
    have hP : 2 ≤ p2 (b - k) ∨ (k = 1 ∧ p2 (b - k) = 2) := by
      left
      have : p2 1 ≤ p2 (b - k) := p2_le_p2 (by omega)
      rwa [p2_one] at this
    have hP : 2 ≤ p2 (b - k) := by rcases hP with h | ⟨-, h⟩ <;> linarith
    have hnq0 : (0 : ℚ) ≤ n := by exact_mod_cast hn0
    have hnq1 : (n : ℚ) ≤ 1 := by exact_mod_cast hn1
    have hkq0 : (0 : ℚ) ≤ p2 (b - k) * k := by
      rcases hk with h | h <;> rw [h] <;> push_cast
      · linarith
      · rw [← h]; linarith
    have hkq1 : p2 (b - k) * k = 0 ∨ p2 (b - k) * k = p2 (b - k) := by
      rcases hk with h | h <;> rw [h] <;> push_cast
      · left; ring
      · right; ring
    set P := p2 (b - k)
    cases S
    · show clipByValue _ _ _ = _
      unfold clipByValue
      rw [show -(P - 1 + 1) * (k : ℚ) = -(P * k) by ring, min_eq_left (by linarith), max_eq_left (by linarith)]
    · show (n : ℚ) * _ = _
      rw [show (-(P - 1) - 1) * (k : ℚ) = -(P * k) by ring, if_pos ⟨by linarith, by linarith⟩, mul_one]
    · show clipByValue _ _ _ = _
      unfold clipByValue
      have : -(P - 1) * (k : ℚ) ≤ 0 := by
        rcases hk with h | h <;> rw [h] <;> push_cast <;> linarith
      rw [min_eq_left (by linarith), max_eq_left (by linarith)]
    · show floorMod _ _ + _ = _
      rw [show -(P - 1 + 1) * (k : ℚ) = -(P * k) by ring]
      unfold floorMod
      have : ⌊((n : ℚ) - -(P * k)) / (P - 1 - -(P * k) + 1)⌋ = 0 := by
        rw [Int.floor_eq_iff]
        have hden : 0 < P - 1 - -(P * k) + 1 := by linarith
        rw [le_div_iff₀ hden, div_lt_iff₀ hden]
        push_cast
        constructor <;> linarith
      rw [this]; push_cast; ring
    · show |floorMod _ _ - _ + 1 / 2| - 1 / 2 + _ = _
      rw [show -(P - 1 + 1) * (k : ℚ) = -(P * k) by ring]
      unfold floorMod
      have : ⌊((n : ℚ) - (P - 1) - 1) / ((P - 1 - -(P * k) + 1) * 2)⌋ = -1 := by
        rw [Int.floor_eq_iff]
        have hden : 0 < (P - 1 - -(P * k) + 1) * 2 := by linarith
        rw [le_div_iff₀ hden, div_lt_iff₀ hden]
        push_cast
        constructor <;> linarith
      rw [this]
      push_cast
      rw [abs_of_nonneg (by linarith)]
      ring
  have hne : b ≠ 0 := by omega
  refine ⟨hx, ?_, ?_⟩
  · unfold gfixedQuantizer
    dsimp only
    rw [hsc]
    have : rndMap .RND badHalf = ((0 : ℤ) : ℚ) := by
      show ((flr (badHalf + 1 / 2) : ℤ) : ℚ) = _
      rw [flr_eq_iff.mpr (show ((0 : ℤ) : ℚ) ≤ badHalf + 1 / 2 ∧ badHalf + 1 / 2 < ((0 : ℤ) : ℚ) + 1 by
        rw [hval]; constructor <;> norm_num)]
    rw [this, hpass 0 le_rfl (by norm_num)]
    simp
  · unfold gfixedQuantizerF
    dsimp only
    rw [hsc, hbf.fl]
    have : rndMapF fl32 .RND badHalf = ((1 : ℤ) : ℚ) := by
      show ((flr (fl32 (badHalf + 1 / 2)) : ℤ) : ℚ) = _
      have : fl32 (badHalf + 1 / 2) = 1 := by rw [hval]; decide +kernel
      rw [this]
      norm_num [flr]
    rw [this, (satMap32_eq S ⟨1, rfl⟩ (by norm_num) hk (by omega) hb).1, hpass 1 (by norm_num) le_rfl, if_pos hne, mul_one, div_p2]
    have h1 : IsFloat32 (((1 : ℤ) : ℚ) * p2 (-(b - i))) := (isFloat32_int 1 (by norm_num)).mul_p2 _
    rw [h1.fl, h1.fl, Int.cast_one, one_mul]
    show p2 _ = p2 _
    congr 1; ring

/-- **C57**, HGQ quantizers with the strategy 'floor', inference: exact for every float32 input and every bitwidth. -/
theorem C57_floor (fbw x : ℚ) (hx : IsFloat32 x) : evalQF fl32 3 fbw x = evalQ 3 fbw x := by
  rw [evalQ_floor]
  unfold evalQF
  dsimp only
  rw [if_pos rfl]
  set f := tfRound fbw
  have hs := hx.mul_p2 f
  rw [hs.fl, div_p2]
  have hxf : x = x * p2 f * p2 (-f) := by rw [mul_assoc, p2_mul_neg, mul_one]
  by_cases hl : 2 ^ 23 ≤ |x * p2 f|
  · obtain ⟨n, hn⟩ := hs.int_of_large hl
    rw [hn, flr_int, ← hn, ← hxf, hx.fl, sub_self, fl32_zero, add_zero, hx.fl]
  · push Not at hl
    have hl' := abs_lt.mp hl
    have h1 : flr (x * p2 f) < 2 ^ 23 := flr_lt.mpr (by push_cast; linarith)
    have h2 : -2 ^ 23 ≤ flr (x * p2 f) := le_flr.mpr (by push_cast; linarith)
    have hn : |flr (x * p2 f)| < 2 ^ 24 := by rw [abs_lt]; constructor <;> omega
    have hq : IsFloat32 ((flr (x * p2 f) : ℚ) * p2 (-f)) := (isFloat32_int _ hn.le).mul_p2 _
    rw [hq.fl]
    refine straightThrough hx hn ?_
    have h3 := flr_le (x * p2 f)
    have h4 := lt_flr_add_one (x * p2 f)
    have hp := p2_pos (-f)
    have h5 : (flr (x * p2 f) : ℚ) * p2 (-f) ≤ x * p2 f * p2 (-f) := mul_le_mul_of_nonneg_right h3 hp.le
    have h6 : x * p2 f * p2 (-f) ≤ ((flr (x * p2 f) : ℚ) + 1) * p2 (-f) := mul_le_mul_of_nonneg_right h4.le hp.le
    rw [← hxf] at h5 h6
    rw [abs_le]
    constructor <;> linarith

/-- **C57**, HGQ quantizers with the other strategies, inference: exact for every float32 input below 2^23 units, apart from the
largest number below half a unit, see `C57_round_just_below_half`. -/
theorem C57_round_partial (strategy : ℤ) (hst : strategy ≠ 3) (fbw x : ℚ) (hx : IsFloat32 x)
    (hrange : |x * (2 : ℚ) ^ tfRound fbw| < 2 ^ 23) (hbad : x * (2 : ℚ) ^ tfRound fbw ≠ 1 / 2 - 1 / 2 ^ 25) :
    evalQF fl32 strategy fbw x = evalQ strategy fbw x := by
  have hbe : badHalf = 1 / 2 - 1 / 2 ^ 25 := by unfold badHalf p2; norm_num
  rw [← hbe] at hbad
  rw [evalQ_round hst]
  unfold evalQF
  dsimp only
  rw [if_neg hst]
  set f := tfRound fbw
  change |x * p2 f| < _ at hrange
  change x * p2 f ≠ _ at hbad
  have hs := hx.mul_p2 f
  rw [hs.fl, div_p2, (halfUp32 hs hrange).mpr hbad]
  have hxf : x = x * p2 f * p2 (-f) := by rw [mul_assoc, p2_mul_neg, mul_one]
  have hl' := abs_lt.mp hrange
  have h1 : flr (x * p2 f + 1 / 2) < 2 ^ 23 + 1 := flr_lt.mpr (by push_cast; linarith)
  have h2 : -2 ^ 23 ≤ flr (x * p2 f + 1 / 2) := le_flr.mpr (by push_cast; linarith)
  have hn : |flr (x * p2 f + 1 / 2)| < 2 ^ 24 := by rw [abs_lt]; constructor <;> omega
  have hq : IsFloat32 ((flr (x * p2 f + 1 / 2) : ℚ) * p2 (-f)) := (isFloat32_int _ hn.le).mul_p2 _
  rw [hq.fl]
  refine straightThrough hx hn ?_
  have h3 := flr_le (x * p2 f + 1 / 2)
  have h4 := lt_flr_add_one (x * p2 f + 1 / 2)
  have hp := p2_pos (-f)
  have h5 : (flr (x * p2 f + 1 / 2) : ℚ) * p2 (-f) ≤ (x * p2 f + 1 / 2) * p2 (-f) := mul_le_mul_of_nonneg_right h3 hp.le
  have h6 : (x * p2 f + 1 / 2) * p2 (-f) ≤ ((flr (x * p2 f + 1 / 2) : ℚ) + 1) * p2 (-f) := mul_le_mul_of_nonneg_right h4.le hp.le
  rw [add_mul, ← hxf] at h5 h6
  rw [abs_le]
  constructor <;> linarith

/-- **C57** is violated by the code: whatever the bitwidth, the largest float32 number below half a unit is rounded up to one unit. -/
theorem C57_round_just_below_half (strategy : ℤ) (hst : strategy ≠ 3) (fbw : ℚ) :
    let x := (1 / 2 - 1 / 2 ^ 25 : ℚ) * (2 : ℚ) ^ (-tfRound fbw)
    IsFloat32 x ∧ evalQ strategy fbw x = 0 ∧ evalQF fl32 strategy fbw x = (2 : ℚ) ^ (-tfRound fbw) := by
  intro x
  set f := tfRound fbw with hf
  have hval : badHalf = 1 / 2 - 1 / 2 ^ 25 := by unfold badHalf p2; norm_num
  have hbf : IsFloat32 badHalf := ⟨2 ^ 24 - 1, -25, by norm_num, by unfold badHalf p2; norm_num⟩
  have hxe : x = badHalf * p2 (-f) := by rw [hval]; rfl
  have hx : IsFloat32 x := by rw [hxe]; exact hbf.mul_p2 _
  have hsc : x * p2 f = badHalf := by rw [hxe, mul_assoc, p2_neg_mul, mul_one]
  refine ⟨hx, ?_, ?_⟩
  · rw [evalQ_round hst, ← hf, hsc]
    rw [flr_eq_iff.mpr (show ((0 : ℤ) : ℚ) ≤ badHalf + 1 / 2 ∧ badHalf + 1 / 2 < ((0 : ℤ) : ℚ) + 1 by
        rw [hval]; constructor <;> norm_num)]
    simp
  · unfold evalQF
    dsimp only
    rw [if_neg hst, ← hf, hsc, hbf.fl]
    have h1 : fl32 (badHalf + 1 / 2) = 1 := by rw [hval]; decide +kernel
    have h2 : flr (1 : ℚ) = 1 := by norm_num [flr]
    rw [h1, h2, div_p2]
    have hq : IsFloat32 (((1 : ℤ) : ℚ) * p2 (-f)) := (isFloat32_int 1 (by norm_num)).mul_p2 _
    rw [hq.fl]
    have := straightThrough (n := 1) (f := f) hx (by norm_num) (by
      rw [hxe, Int.cast_one, one_mul, hval]
      have hp := p2_pos (-f)
      rw [abs_le]
      constructor <;> linarith)
    rw [this, Int.cast_one, one_mul]
    rfl

/-- the bound of `C57_round_partial` is sharp: one unit above 2^23 units, an odd number of units is rounded to another one -/
theorem C57_round_bound_sharp : IsFloat32 (2 ^ 23 + 1) ∧ evalQ 0 0 (2 ^ 23 + 1) = 2 ^ 23 + 1 ∧ evalQF fl32 0 0 (2 ^ 23 + 1) = 2 ^ 23 + 2 := by
  refine ⟨⟨2 ^ 23 + 1, 0, by norm_num, by norm_num⟩, ?_, ?_⟩ <;> decide +kernel

/-- the hypotheses of `C57_fixed_point_partial` and `C57_round_partial` -/
example : IsFloat32 (-13 / 8) ∧ |(-13 / 8 : ℚ) * (2 : ℚ) ^ ((6 : ℤ) - 4)| < 2 ^ 22 ∧
    gfixedQuantizerF fl32 (-13 / 8) 1 6 4 .RND .WRAP = -3 / 2 := by
  refine ⟨⟨-13, -3, by norm_num, by norm_num⟩, by norm_num [abs_lt], by decide +kernel⟩

/-! ### C58 -/

/-- **C58**: inputs on the grid 2^-fx and weights on the grid 2^-fw; if the magnitudes of the products add up to at most 2^24 units of
the product grid, then accumulation in float32 in any order and association, with or without fused multiply-add, is exact. -/
theorem C58_any_order {α : Type} (x w : α → ℚ) (fx fw : ℤ) (terms : List α)
    (hx : ∀ a ∈ terms, ∃ n : ℤ, x a = n * (2 : ℚ) ^ (-fx)) (hw : ∀ a ∈ terms, ∃ n : ℤ, w a = n * (2 : ℚ) ^ (-fw))
    (hb : (terms.map fun a => |x a * w a|).sum ≤ 2 ^ 24 * (2 : ℚ) ^ (-(fx + fw)))
    (order : Acc α) (horder : order.terms.Perm terms) :
    order.runF fl32 x w = (terms.map fun a => x a * w a).sum :=
  Acc.runF_exact x w fx fw (fun _ h1 h2 => (isFloat32_of_grid h1 h2).fl) terms hx hw hb order horder

/-- **C58** for types: `n` products of inputs with `ix` integer and `fx` fractional bits by weights with `iw` and `fw` bits
(magnitudes up to 2^ix and 2^iw) are accumulated exactly when `n` times 2^(ix+fx+iw+fw) is at most 2^24. -/
theorem C58_types {α : Type} (x w : α → ℚ) (ix fx iw fw : ℤ) (terms : List α)
    (hx : ∀ a ∈ terms, (∃ n : ℤ, x a = n * (2 : ℚ) ^ (-fx)) ∧ |x a| ≤ (2 : ℚ) ^ ix)
    (hw : ∀ a ∈ terms, (∃ n : ℤ, w a = n * (2 : ℚ) ^ (-fw)) ∧ |w a| ≤ (2 : ℚ) ^ iw)
    (hn : (terms.length : ℚ) * (2 : ℚ) ^ (ix + fx + iw + fw) ≤ 2 ^ 24)
    (order : Acc α) (horder : order.terms.Perm terms) :
    order.runF fl32 x w = (terms.map fun a => x a * w a).sum := by
  refine C58_any_order x w fx fw terms (fun a ha => (hx a ha).1) (fun a ha => (hw a ha).1) ?_ order horder
  have h1 : (terms.map fun a => |x a * w a|).sum ≤ terms.length * (p2 ix * p2 iw) := by
    clear hn horder
    induction terms with
    | nil => simp
    | cons a l ih =>
      have := ih (fun b hb => hx b (by simp [hb])) (fun b hb => hw b (by simp [hb]))
      have h2 : |x a * w a| ≤ p2 ix * p2 iw := by
        rw [abs_mul]
        exact mul_le_mul (hx a (by simp)).2 (hw a (by simp)).2 (abs_nonneg _) (p2_pos _).le
      simp only [List.map_cons, List.sum_cons, List.length_cons]
      push_cast
      linarith
  refine le_trans h1 ?_
  have h3 : p2 ix * p2 iw = p2 (ix + fx + iw + fw) * p2 (-(fx + fw)) := by
    rw [← p2_add, ← p2_add]; congr 1; ring
  rw [h3, ← mul_assoc]
  exact mul_le_mul_of_nonneg_right hn (p2_pos _).le

/-- the bound of C58 is sharp: with one more unit, the result depends on the order -/
theorem C58_bound_sharp :
    (Acc.fma 2 (.fma 1 (.mul 0))).runF fl32 (fun a : ℕ => if a = 0 then 2 ^ 24 else 1) (fun _ => 1) = 2 ^ 24 ∧
    (Acc.fma 0 (.fma 1 (.mul 2))).runF fl32 (fun a : ℕ => if a = 0 then 2 ^ 24 else 1) (fun _ => 1) = 2 ^ 24 + 2 := by
  constructor <;> decide +kernel

/-- the hypotheses of `C58_types`: three products of inputs and weights with 2 integer and 3 fractional bits -/
example : (Acc.add (.mul 2) (.fma 0 (.mul 1))).runF fl32 (fun a : ℕ => (a : ℚ) + 1 / 8) (fun a => 3 / 2 - (a : ℚ)) = -5 / 16 ∧
    ((3 : ℕ) : ℚ) * (2 : ℚ) ^ ((2 : ℤ) + 3 + 2 + 3) ≤ 2 ^ 24 := by
  constructor <;> decide +kernel

end HGQ
