import Verif.Props.FixedPoint
import Verif.Model.Precision

/-!
Helper lemmas for the type derivation: quantization to a `(k, i, f)` type.
-/

namespace HGQ

open Spec

/-- quantization to the type `(s, i, f)` -/
def gq (s : Bool) (i f : ℤ) (R : Rnd) (S : Sat) (x : ℚ) : ℚ :=
  gfixedQuantizer x s.toInt (s.toInt + i + f) (s.toInt + i) R S

/-- the rounded value before overflow handling -/
def rv (R : Rnd) (f : ℤ) (x : ℚ) : ℚ := rndMap R (x * p2 f) * p2 (-f)

theorem rv_grid (R : Rnd) (f : ℤ) (x : ℚ) : ∃ n : ℤ, rv R f x = n * p2 (-f) := by
  obtain ⟨n, hn⟩ := rndMap_int R (x * p2 f)
  exact ⟨n, by unfold rv; rw [hn]⟩

theorem rv_of_grid (R : Rnd) (f : ℤ) {x : ℚ} (h : ∃ n : ℤ, x = n * p2 (-f)) : rv R f x = x := by
  obtain ⟨n, rfl⟩ := h
  unfold rv
  rw [mul_assoc, p2_neg_mul, mul_one, rndMap_fix]

theorem rv_mono (R : Rnd) (f : ℤ) {x y : ℚ} (h : x ≤ y) : rv R f x ≤ rv R f y :=
  mul_le_mul_of_nonneg_right (rndMap_mono R (mul_le_mul_of_nonneg_right h (p2_pos f).le)) (p2_pos _).le

theorem grid_refine {f g : ℤ} (h : f ≤ g) {x : ℚ} (hx : ∃ n : ℤ, x = n * p2 (-f)) : ∃ n : ℤ, x = n * p2 (-g) := by
  obtain ⟨n, rfl⟩ := hx
  obtain ⟨m, hm, -⟩ := p2_int_of_nonneg (a := g - f) (by omega)
  refine ⟨n * m, ?_⟩
  have : p2 (-f) = p2 (g - f) * p2 (-g) := by rw [← p2_add]; congr 1; ring
  rw [this, hm]; push_cast; ring

theorem grid_p2 {i f : ℤ} (h : 0 ≤ i + f) : ∃ n : ℤ, p2 i = n * p2 (-f) := by
  obtain ⟨m, hm, -⟩ := p2_int_of_nonneg h
  refine ⟨m, ?_⟩
  rw [← hm, ← p2_add]; congr 1; ring

theorem grid_neg {f : ℤ} {x : ℚ} (hx : ∃ n : ℤ, x = n * p2 (-f)) : ∃ n : ℤ, -x = n * p2 (-f) := by
  obtain ⟨n, rfl⟩ := hx; exact ⟨-n, by push_cast; ring⟩

theorem grid_add {f : ℤ} {x y : ℚ} (hx : ∃ n : ℤ, x = n * p2 (-f)) (hy : ∃ n : ℤ, y = n * p2 (-f)) :
    ∃ n : ℤ, x + y = n * p2 (-f) := by
  obtain ⟨n, rfl⟩ := hx; obtain ⟨m, rfl⟩ := hy; exact ⟨n + m, by push_cast; ring⟩

theorem toInt_cases (s : Bool) : s.toInt = 0 ∨ s.toInt = 1 := by cases s <;> simp [Bool.toInt]

theorem gq_kif (s : Bool) {i f : ℤ} (hw : 0 ≤ s.toInt + i + f) (R : Rnd) (S : Sat) (x : ℚ) :
    IsKif s.toInt i f (gq s i f R S x) := by
  obtain ⟨w, hw'⟩ := Int.eq_ofNat_of_zero_le hw
  have h := C01_output_in_type x s w (s.toInt + i) R S
  rw [spec_kif_iff_apfixed] at h
  have e1 : s.toInt + i - s.toInt = i := by ring
  have e2 : (w : ℤ) - (s.toInt + i) = f := by omega
  rw [e1, e2] at h
  unfold gq
  rw [hw']
  exact h

/-- the quantizer sees its argument only through the rounded value -/
theorem gq_rv (s : Bool) (i f : ℤ) (R R' : Rnd) (S : Sat) (x : ℚ) : gq s i f R S x = gq s i f R' S (rv R f x) := by
  unfold gq gfixedQuantizer
  have e : s.toInt + i + f - (s.toInt + i) = f := by ring
  simp only [e]
  have : rv R f x * p2 f = rndMap R (x * p2 f) := by
    unfold rv; rw [mul_assoc, p2_neg_mul, mul_one]
  rw [this]
  obtain ⟨n, hn⟩ := rndMap_int R (x * p2 f)
  rw [hn, rndMap_fix]

theorem gq_congr (s : Bool) (i f : ℤ) (R R' : Rnd) (S : Sat) {x y : ℚ} (h : rv R f x = rv R' f y) :
    gq s i f R S x = gq s i f R' S y := by
  rw [gq_rv s i f R .TRN, gq_rv s i f R' .TRN, h]

theorem gq_of_kif (s : Bool) {i f : ℤ} (hw : 0 ≤ s.toInt + i + f) (R : Rnd) (S : Sat) (hS : S ≠ .SAT_SYM) (x : ℚ)
    (h : IsKif s.toInt i f (rv R f x)) : gq s i f R S x = rv R f x := by
  rw [gq_rv s i f R .TRN]
  obtain ⟨w, hw'⟩ := Int.eq_ofNat_of_zero_le hw
  have h2 : IsApFixed s w (s.toInt + i) (rv R f x) := by
    rw [spec_kif_iff_apfixed]
    have e1 : s.toInt + i - s.toInt = i := by ring
    have e2 : (w : ℤ) - (s.toInt + i) = f := by omega
    rw [e1, e2]; exact h
  have := C02_representable_unchanged (rv R f x) s w (s.toInt + i) .TRN S h2 (fun h => absurd h hS)
  unfold gq
  rw [hw']; exact this

theorem gq_wrap (s : Bool) {i f : ℤ} (hw : 0 ≤ s.toInt + i + f) (R : Rnd) (x : ℚ) :
    ∃ m : ℤ, rv R f x = gq s i f R .WRAP x + m * p2 (s.toInt + i) := by
  obtain ⟨w, hw'⟩ := Int.eq_ofNat_of_zero_le hw
  obtain ⟨n, hn⟩ := rndMap_int R (x * p2 f)
  have e : (w : ℤ) - (s.toInt + i) = f := by omega
  have h := C03_wrap_is_bit_truncation x s w (s.toInt + i) R n (by rw [e]; exact hn)
  obtain ⟨c, hc⟩ := truncateBits_congr s w n
  refine ⟨c, ?_⟩
  unfold gq
  rw [hw']
  have h' : gfixedQuantizer x s.toInt (w : ℤ) (s.toInt + i) R .WRAP = (truncateBits s w n : ℚ) * p2 (s.toInt + i - w) := h
  rw [h']
  unfold rv
  rw [hn]
  have e3 : s.toInt + i - (w : ℤ) = -f := by omega
  have e4 : p2 (s.toInt + i) = p2 (w : ℤ) * p2 (-f) := by rw [← p2_add]; congr 1; omega
  rw [e3, e4, p2_natCast]
  have : (n : ℚ) = truncateBits s w n + (2 ^ w : ℤ) * c := by exact_mod_cast (by linarith : n = truncateBits s w n + 2 ^ w * c)
  rw [this]; ring

/-- a type contains at most one value of each residue class modulo its period -/
theorem kif_mod_unique (s : Bool) {i f f' : ℤ} {y y' : ℚ} (h : IsKif s.toInt i f y) (h' : IsKif s.toInt i f' y') (m : ℤ)
    (hm : y - y' = m * p2 (s.toInt + i)) : y = y' := by
  obtain ⟨-, h1, h2⟩ := h
  obtain ⟨-, h3, h4⟩ := h'
  change _ < p2 i at h2
  change _ < p2 i at h4
  change -(_ * p2 i) ≤ _ at h1
  change -(_ * p2 i) ≤ _ at h3
  have hp := p2_pos i
  have hb : |y - y'| < p2 (s.toInt + i) := by
    cases s
    · simp only [toInt_false, zero_add, Int.cast_zero, zero_mul, neg_zero] at *
      rw [abs_lt]; constructor <;> linarith
    · simp only [toInt_true, Int.cast_one, one_mul] at *
      rw [add_comm, p2_succ, abs_lt]; constructor <;> linarith
  rw [hm, abs_mul, abs_of_pos (p2_pos _)] at hb
  have h5 : |(m : ℚ)| < 1 := by
    by_contra hc
    push Not at hc
    have := mul_le_mul_of_nonneg_right hc (p2_pos (s.toInt + i)).le
    linarith
  have : m = 0 := by
    have : |m| < 1 := by exact_mod_cast h5
    rwa [Int.abs_lt_one_iff] at this
  rw [this] at hm; simp at hm; linarith

/-- adding a multiple of the period does not change a wrapping quantizer -/
theorem rv_add_period {R : Rnd} (hR : R = .TRN ∨ R = .RND) (f : ℤ) (x : ℚ) (n : ℤ) :
    rv R f (x + n * p2 (-f)) = rv R f x + n * p2 (-f) := by
  have e : (x + n * p2 (-f)) * p2 f = x * p2 f + n := by rw [add_mul, mul_assoc, p2_neg_mul, mul_one]
  unfold rv
  rw [e]
  rcases hR with rfl | rfl
  · simp only [rndMap, rndTRN, flr, Int.floor_add_intCast]; push_cast; ring
  · simp only [rndMap, rndRND, flr]
    rw [show x * p2 f + n + 1 / 2 = x * p2 f + 1 / 2 + n by ring, Int.floor_add_intCast]; push_cast; ring

theorem gq_wrap_period {R : Rnd} (hR : R = .TRN ∨ R = .RND) (s : Bool) {i f : ℤ} (hw : 0 ≤ s.toInt + i + f) (x : ℚ)
    (m : ℤ) : gq s i f R .WRAP (x + m * p2 (s.toInt + i)) = gq s i f R .WRAP x := by
  obtain ⟨n, hn⟩ := grid_p2 (i := s.toInt + i) (f := f) hw
  have e : rv R f (x + m * p2 (s.toInt + i)) = rv R f x + m * p2 (s.toInt + i) := by
    rw [hn, ← mul_assoc, ← Int.cast_mul, rv_add_period hR]
  obtain ⟨a, ha⟩ := gq_wrap s hw R x
  obtain ⟨b, hb⟩ := gq_wrap s hw R (x + m * p2 (s.toInt + i))
  refine kif_mod_unique s (gq_kif s hw R .WRAP _) (gq_kif s hw R .WRAP x) (a + m - b) ?_
  rw [e] at hb
  push_cast
  linarith

/-- `TRN` to a grid at least as fine (one bit finer for `RND`) does not change the rounding -/
theorem rv_trn_finer {R : Rnd} {f g : ℤ} (hR : R = .TRN ∧ f ≤ g ∨ R = .RND ∧ f + 1 ≤ g) (x : ℚ) :
    rv R f (rv .TRN g x) = rv R f x := by
  have hfg : f ≤ g := by rcases hR with ⟨_, h⟩ | ⟨_, h⟩ <;> omega
  obtain ⟨N, hN, hpos⟩ := p2_int_of_nonneg (a := g - f) (by omega)
  have hx : x * p2 f = x * p2 g / N := by
    rw [← hN, div_p2, mul_assoc, ← p2_add]; congr 2; ring
  have hy : rv .TRN g x * p2 f = (flr (x * p2 g) : ℚ) / N := by
    unfold rv; simp only [rndMap, rndTRN]
    rw [← hN, div_p2, mul_assoc, ← p2_add]; congr 2; ring
  have hNq : (0 : ℚ) < N := by exact_mod_cast hpos
  unfold rv
  change rndMap R (rv .TRN g x * p2 f) * _ = _
  rw [hx, hy]
  congr 1
  rcases hR with ⟨rfl, h⟩ | ⟨rfl, h⟩
  · simp only [rndMap, rndTRN]
    congr 1
    rw [eq_comm, flr_eq_iff]
    have h1 := (flr_eq_iff (x := (flr (x * p2 g) : ℚ) / N)).mp rfl
    obtain ⟨h2, h3⟩ := h1
    rw [le_div_iff₀ hNq] at h2
    rw [div_lt_iff₀ hNq] at h3
    set k := flr ((flr (x * p2 g) : ℚ) / N)
    have h2' : k * N ≤ flr (x * p2 g) := by exact_mod_cast h2
    have h3' : flr (x * p2 g) < (k + 1) * N := by exact_mod_cast h3
    rw [le_flr] at h2'
    rw [flr_lt] at h3'
    push_cast at h2' h3'
    exact ⟨by rw [le_div_iff₀ hNq]; exact h2', by rw [div_lt_iff₀ hNq]; exact h3'⟩
  · obtain ⟨M, hM, -⟩ := p2_int_of_nonneg (a := g - f - 1) (by omega)
    have hMN : (N : ℚ) = 2 * M := by
      rw [← hN, ← hM, ← p2_succ]; congr 1; ring
    have hMN' : N = 2 * M := by exact_mod_cast hMN
    simp only [rndMap, rndRND]
    congr 1
    have e : ∀ z : ℚ, z / N + 1 / 2 = (z + M) / N := by
      intro z; rw [eq_div_iff hNq.ne', add_mul, div_mul_cancel₀ _ hNq.ne', hMN]; ring
    rw [e, e, eq_comm, flr_eq_iff]
    obtain ⟨h2, h3⟩ := (flr_eq_iff (x := ((flr (x * p2 g) : ℚ) + M) / N)).mp rfl
    rw [le_div_iff₀ hNq] at h2
    rw [div_lt_iff₀ hNq] at h3
    set k := flr (((flr (x * p2 g) : ℚ) + M) / N)
    have h2' : k * N - M ≤ flr (x * p2 g) := by
      have : (k : ℚ) * N - M ≤ flr (x * p2 g) := by linarith
      exact_mod_cast this
    have h3' : flr (x * p2 g) < (k + 1) * N - M := by
      have : (flr (x * p2 g) : ℚ) < (k + 1) * N - M := by linarith
      exact_mod_cast this
    rw [le_flr] at h2'
    rw [flr_lt] at h3'
    push_cast at h2' h3'
    exact ⟨by rw [le_div_iff₀ hNq]; linarith, by rw [div_lt_iff₀ hNq]; linarith⟩

/-- saturation as clamping -/
theorem gq_sat (s : Bool) {i f : ℤ} (hw : 1 ≤ s.toInt + i + f) (R : Rnd) (x : ℚ) :
    gq s i f R .SAT x = min (max (rv R f x) (-(s.toInt * p2 i))) (p2 i - p2 (-f)) := by
  obtain ⟨w, hw'⟩ := Int.eq_ofNat_of_zero_le (by omega : 0 ≤ s.toInt + i + f)
  have hw1 : 1 ≤ w := by omega
  unfold gq
  rw [gfixed_pos_bits _ _ _ _ _ (by omega), hw']
  obtain ⟨n, hn⟩ := rndMap_int R (x * p2 f)
  have e1 : (w : ℤ) - (s.toInt + i) = f := by omega
  have e2 : s.toInt + i - (w : ℤ) = -f := by omega
  rw [e1, e2, hn]
  unfold rv
  rw [hn]
  show satSAT n s.toInt (w : ℤ) * _ = _
  unfold satSAT
  simp only
  have hp := p2_pos (-f)
  have e3 : p2 ((w : ℤ) - s.toInt) = p2 i * p2 f := by rw [← p2_add]; congr 1; omega
  rw [clipByValue_eq (by rw [code_high s hw1, code_low s hw1]; exact_mod_cast (lowB_nonpos s w).trans (highB_nonneg s w))]
  rw [min_mul_of_nonneg _ _ hp.le, max_mul_of_nonneg _ _ hp.le, e3]
  congr 1
  · congr 1
    have := p2_mul_neg f
    calc -(p2 i * p2 f - 1 + 1) * (s.toInt : ℚ) * p2 (-f) = -(s.toInt * p2 i) * (p2 f * p2 (-f)) := by ring
      _ = _ := by rw [this]; ring
  · have := p2_mul_neg f
    calc (p2 i * p2 f - 1) * p2 (-f) = p2 i * (p2 f * p2 (-f)) - p2 (-f) := by ring
      _ = _ := by rw [this]; ring

end HGQ
