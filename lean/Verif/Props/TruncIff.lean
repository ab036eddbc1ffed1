import Verif.Props.Produced2
import Verif.Lemmas.NarrowIff

/-!
C66, rounding, exactly: which rounding modes do not see that a value was truncated before.
-/

namespace Spec

/-- Truncating values with `fa` fractional bits to `g` bits before a quantizer with `f` fractional bits and rounding mode `R` is safe: nothing is
truncated, or `R` is `TRN` and `g` has the bits of the result, or `R` is `RND` and there is one bit more. (`RND_MIN_INF` rounds a single extra bit
down as truncation does.) -/
def TruncationSafe (R : HGQ.Rnd) (fa g f : ℤ) : Prop :=
  fa ≤ g ∨ match R with
    | .TRN => f ≤ g
    | .RND => f + 1 ≤ g
    | .RND_MIN_INF => g = f ∧ fa = f + 1
    | _ => False

end Spec

namespace HGQ
open Spec

theorem rv_scaled (R : Rnd) (f : ℤ) (z : ℚ) : rv R f (z * p2 (-f)) = rndMap R z * p2 (-f) := by
  unfold rv
  rw [mul_assoc, p2_neg_mul, mul_one]

/-- small values on a grid are values of the type -/
theorem kif_scaled {i fa f : ℤ} (hif : 1 ≤ i + f) {z : ℚ} (h1 : -2 ≤ z) (h2 : z < 2) (hg : ∃ n : ℤ, z = n * p2 (f - fa)) : IsKif 1 i fa (z * p2 (-f)) := by
  have hp := p2_pos (-f)
  have hpi : 2 * p2 (-f) ≤ p2 i := p2_half (by omega)
  obtain ⟨n, hn⟩ := hg
  refine ⟨⟨n, ?_⟩, ?_, ?_⟩
  · rw [hn, mul_assoc, ← p2_add]
    change _ = _ * p2 (-fa)
    congr 2
    ring
  · change -(_ * p2 i) ≤ _
    push_cast
    nlinarith
  · change _ < p2 i
    nlinarith

/-- multiples of a power of two are on every finer grid -/
theorem grid_mult {a b : ℤ} (h : b ≤ a) (k : ℤ) : ∃ n : ℤ, (k : ℚ) * p2 a = n * p2 b := by
  obtain ⟨m, hm, -⟩ := p2_int_of_nonneg (a := a - b) (by omega)
  refine ⟨k * m, ?_⟩
  rw [Int.cast_mul, ← hm, mul_assoc, ← p2_add]
  congr 2
  ring

theorem p2_m1 : p2 (-1) = 1 / 2 := by unfold p2; norm_num
theorem p2_m2 : p2 (-2) = 1 / 4 := by unfold p2; norm_num

/-- just above a tie, or just above -1 -/
theorem rndMap_above {e : ℚ} (h0 : 0 < e) (h1 : e ≤ 1 / 4) :
    rndMap .RND_CONV (1 / 2 + e) = 1 ∧ rndMap .RND_ZERO (1 / 2 + e) = 1 ∧ rndMap .RND_MIN_INF (1 / 2 + e) = 1 ∧
    rndMap .RND_INF (-1 / 2 + e) = 0 ∧ rndMap .TRN_ZERO (-1 + e) = 0 := by
  refine ⟨?_, ?_, ?_, ?_, ?_⟩
  · change ((tfRound (1 / 2 + e) : ℤ) : ℚ) = 1
    have f1 : ⌊1 / 2 + e⌋ = 0 := by rw [Int.floor_eq_iff]; push_cast; constructor <;> linarith
    unfold tfRound
    simp only [f1, Int.cast_zero, sub_zero]
    rw [if_neg (by linarith), if_pos (by linarith)]
    norm_num
  · change -((⌊-|1 / 2 + e| + 1 / 2⌋ : ℤ) : ℚ) * tfSign (1 / 2 + e) = 1
    rw [abs_of_pos (by linarith)]
    have f1 : ⌊-(1 / 2 + e) + 1 / 2⌋ = -1 := by rw [Int.floor_eq_iff]; push_cast; constructor <;> linarith
    rw [f1]
    unfold tfSign
    rw [if_pos (by linarith)]
    norm_num
  · change -((⌊-(1 / 2 + e) + 1 / 2⌋ : ℤ) : ℚ) = 1
    have f1 : ⌊-(1 / 2 + e) + 1 / 2⌋ = -1 := by rw [Int.floor_eq_iff]; push_cast; constructor <;> linarith
    rw [f1]
    norm_num
  · change ((⌊|-1 / 2 + e| + 1 / 2⌋ : ℤ) : ℚ) * tfSign (-1 / 2 + e) = 0
    rw [abs_of_neg (by linarith)]
    have f1 : ⌊-(-1 / 2 + e) + 1 / 2⌋ = 0 := by rw [Int.floor_eq_iff]; push_cast; constructor <;> linarith
    rw [f1]
    norm_num
  · change ((⌊|-1 + e|⌋ : ℤ) : ℚ) * tfSign (-1 + e) = 0
    rw [abs_of_neg (by linarith)]
    have f1 : ⌊-(-1 + e)⌋ = 0 := by rw [Int.floor_eq_iff]; push_cast; constructor <;> linarith
    rw [f1]
    norm_num

/-- a value for which the truncation shows -/
theorem trunc_seen {R : Rnd} {i fa g f : ℤ} (hf : 1 ≤ i + f) (hg : 1 ≤ i + g) (h : ¬ TruncationSafe R fa g f) :
    ∃ x, IsKif 1 i fa x ∧ rv R f (rv .TRN g x) ≠ rv R f x := by
  unfold TruncationSafe at h
  push Not at h
  obtain ⟨hfa, h⟩ := h
  have hpf := p2_pos (-f)
  -- `z` units of the result are truncated to `y` units and rounded differently
  have main : ∀ z y : ℚ, -2 ≤ z → z < 2 → (∃ n : ℤ, z = n * p2 (f - fa)) → (∃ n : ℤ, y = n * p2 (f - g)) → y ≤ z → z < y + p2 (f - g) →
      rndMap R y ≠ rndMap R z → ∃ x, IsKif 1 i fa x ∧ rv R f (rv .TRN g x) ≠ rv R f x := by
    intro z y z1 z2 hz hy h1 h2 hne
    refine ⟨z * p2 (-f), kif_scaled hf z1 z2 hz, ?_⟩
    obtain ⟨n, hn⟩ := hy
    have e : p2 (f - g) * p2 (-f) = p2 (-g) := by rw [← p2_add]; congr 1; ring
    have ey : y * p2 (-f) = n * p2 (-g) := by rw [hn, mul_assoc, e]
    have ht : rv .TRN g (z * p2 (-f)) = y * p2 (-f) := by
      rw [ey]
      refine rv_trn_eq g n ?_ ?_
      · rw [← ey]; exact mul_le_mul_of_nonneg_right h1 hpf.le
      · rw [add_mul, one_mul, ← ey, ← e, ← add_mul]; exact mul_lt_mul_of_pos_right h2 hpf
    rw [ht, rv_scaled, rv_scaled]
    intro hc
    exact hne (mul_right_cancel₀ hpf.ne' hc)
  rcases lt_trichotomy g f with hgf | hgf | hgf
  · -- fewer bits than the result
    refine ⟨p2 (-(min fa f)), ?_, ?_⟩
    · have h0 := p2_pos (-(min fa f))
      have h1 := p2_lt_p2 (a := -(min fa f)) (b := i) (by omega)
      refine ⟨?_, ?_, h1⟩
      · obtain ⟨n, hn⟩ := grid_mult (a := -(min fa f)) (b := -fa) (by omega) 1
        exact ⟨n, by rw [← one_mul (p2 (-(min fa f)))]; exact_mod_cast hn⟩
      · change -(_ * p2 i) ≤ _
        push_cast
        linarith
    · have h0 := p2_pos (-(min fa f))
      have h1 := p2_lt_p2 (a := -(min fa f)) (b := -g) (by omega)
      rw [rv_trn_eq g 0 (by simpa using h0.le) (by simpa using h1), Int.cast_zero, zero_mul, rv_of_grid R f ⟨0, by simp⟩,
        rv_of_grid R f]
      · exact h0.ne
      · obtain ⟨n, hn⟩ := grid_mult (a := -(min fa f)) (b := -f) (by omega) 1
        exact ⟨n, by rw [← one_mul (p2 (-(min fa f)))]; exact_mod_cast hn⟩
  · -- as many bits as the result
    subst hgf
    rw [sub_self, p2_zero] at main
    have half : ∀ k : ℤ, ∃ n : ℤ, (k : ℚ) / 2 = n * p2 (g - fa) := by
      intro k
      obtain ⟨n, hn⟩ := grid_mult (a := -1) (b := g - fa) (by omega) k
      exact ⟨n, by rw [← hn, p2_m1]; ring⟩
    cases R with
    | TRN => exact absurd h (by simp)
    | RND => exact main (1 / 2) 0 (by norm_num) (by norm_num) (by simpa using half 1) ⟨0, by norm_num⟩ (by norm_num) (by norm_num) (by decide +kernel)
    | RND_INF => exact main (1 / 2) 0 (by norm_num) (by norm_num) (by simpa using half 1) ⟨0, by norm_num⟩ (by norm_num) (by norm_num) (by decide +kernel)
    | RND_CONV => exact main (3 / 2) 1 (by norm_num) (by norm_num) (by simpa using half 3) ⟨1, by norm_num⟩ (by norm_num) (by norm_num) (by decide +kernel)
    | RND_ZERO => exact main (-1 / 2) (-1) (by norm_num) (by norm_num) (by simpa using half (-1)) ⟨-1, by norm_num⟩ (by norm_num) (by norm_num) (by decide +kernel)
    | TRN_ZERO => exact main (-1 / 2) (-1) (by norm_num) (by norm_num) (by simpa using half (-1)) ⟨-1, by norm_num⟩ (by norm_num) (by norm_num) (by decide +kernel)
    | RND_MIN_INF =>
      have h : ¬ (g = g ∧ fa = g + 1) := h
      obtain ⟨n, hn⟩ := grid_mult (a := -2) (b := g - fa) (by omega) 3
      exact main (3 / 4) 0 (by norm_num) (by norm_num) ⟨n, by rw [← hn, p2_m2]; norm_num⟩ ⟨0, by norm_num⟩ (by norm_num) (by norm_num) (by decide +kernel)
  · -- more bits than the result
    have e0 := p2_pos (f - fa)
    have e1 : p2 (f - fa) ≤ 1 / 4 := by rw [← p2_m2]; exact p2_le_p2 (by omega)
    have e2 : p2 (f - fa) < p2 (f - g) := p2_lt_p2 (by omega)
    obtain ⟨a1, a2, a3, a4, a5⟩ := rndMap_above e0 e1
    have half : ∀ c ≤ (-1 : ℤ), ∀ k : ℤ, ∃ n : ℤ, (k : ℚ) / 2 = n * p2 c := by
      intro c hc k
      obtain ⟨n, hn⟩ := grid_mult (a := -1) (b := c) hc k
      exact ⟨n, by rw [← hn, p2_m1]; ring⟩
    have shift : ∀ k : ℤ, ∃ n : ℤ, (k : ℚ) / 2 + p2 (f - fa) = n * p2 (f - fa) := by
      intro k
      obtain ⟨n, hn⟩ := half (f - fa) (by omega) k
      exact ⟨n + 1, by rw [hn]; push_cast; ring⟩
    have fin : ∀ k : ℤ, -3 ≤ k → k ≤ 3 → rndMap R ((k : ℚ) / 2) ≠ rndMap R ((k : ℚ) / 2 + p2 (f - fa)) →
        ∃ x, IsKif 1 i fa x ∧ rv R f (rv .TRN g x) ≠ rv R f x := by
      intro k k1 k2 hne
      have k1 : (-3 : ℚ) ≤ k := by exact_mod_cast k1
      have k2 : (k : ℚ) ≤ 3 := by exact_mod_cast k2
      exact main _ _ (by linarith) (by linarith) (shift k) (half (f - g) (by omega) k) (by linarith) (by linarith) hne
    cases R with
    | TRN => exact absurd h (by simp; omega)
    | RND => exact absurd h (by simp; omega)
    | RND_CONV =>
      refine fin 1 (by norm_num) (by norm_num) ?_
      rw [show ((1 : ℤ) : ℚ) / 2 = 1 / 2 by norm_num, a1]
      decide +kernel
    | RND_ZERO =>
      refine fin 1 (by norm_num) (by norm_num) ?_
      rw [show ((1 : ℤ) : ℚ) / 2 = 1 / 2 by norm_num, a2]
      decide +kernel
    | RND_MIN_INF =>
      refine fin 1 (by norm_num) (by norm_num) ?_
      rw [show ((1 : ℤ) : ℚ) / 2 = 1 / 2 by norm_num, a3]
      decide +kernel
    | RND_INF =>
      refine fin (-1) (by norm_num) (by norm_num) ?_
      rw [show ((-1 : ℤ) : ℚ) / 2 = -1 / 2 by norm_num, a4]
      decide +kernel
    | TRN_ZERO =>
      refine fin (-2) (by norm_num) (by norm_num) ?_
      rw [show ((-2 : ℤ) : ℚ) / 2 = -1 by norm_num, a5]
      decide +kernel

/-- truncation in the safe cases -/
theorem trunc_unseen {R : Rnd} {fa g f : ℤ} (h : TruncationSafe R fa g f) {x : ℚ} (hx : ∃ n : ℤ, x = n * p2 (-fa)) :
    rv R f (rv .TRN g x) = rv R f x := by
  rcases h with h | h
  · rw [rv_of_grid .TRN g (grid_refine h hx)]
  · cases R with
    | TRN => exact rv_trn_finer (.inl ⟨rfl, h⟩) x
    | RND => exact rv_trn_finer (.inr ⟨rfl, h⟩) x
    | RND_MIN_INF =>
      obtain ⟨rfl, rfl⟩ := h
      rw [rv_of_grid .RND_MIN_INF g (rv_grid .TRN g x)]
      obtain ⟨n, rfl⟩ := hx
      have e : (n : ℚ) * p2 (-(g + 1)) * p2 g = n / 2 := by
        rw [mul_assoc, ← p2_add, show -(g + 1) + g = -1 by ring, p2_m1]; ring
      unfold rv
      rw [e]
      congr 1
      change ((⌊(n : ℚ) / 2⌋ : ℤ) : ℚ) = -((⌊-((n : ℚ) / 2) + 1 / 2⌋ : ℤ) : ℚ)
      rcases Int.even_or_odd' n with ⟨m, rfl | rfl⟩
      · have f1 : ⌊((2 * m : ℤ) : ℚ) / 2⌋ = m := by rw [Int.floor_eq_iff]; push_cast; constructor <;> linarith
        have f2 : ⌊-(((2 * m : ℤ) : ℚ) / 2) + 1 / 2⌋ = -m := by rw [Int.floor_eq_iff]; push_cast; constructor <;> linarith
        rw [f1, f2]; push_cast; ring
      · have f1 : ⌊((2 * m + 1 : ℤ) : ℚ) / 2⌋ = m := by rw [Int.floor_eq_iff]; push_cast; constructor <;> linarith
        have f2 : ⌊-(((2 * m + 1 : ℤ) : ℚ) / 2) + 1 / 2⌋ = -m := by rw [Int.floor_eq_iff]; push_cast; constructor <;> linarith
        rw [f1, f2]; push_cast; ring
    | _ => exact h.elim

/-- **C66**, rounding, exactly: a signed value with `fa` fractional bits is stored with `g` of them, then quantized to `f` fractional bits with any
rounding mode by a quantizer in which nothing overflows. The stored type makes no difference for any value if and only if `TruncationSafe`:
`TRN` and `RND` are the only modes for which extra fractional bits (the code asks for two, whatever the mode) make truncation safe. -/
theorem C66_rounding_iff (R : Rnd) (S : Sat) (hS : S ≠ .SAT_SYM) (i ig i' fa g f : ℤ) (hf : 1 ≤ i + f) (hg : 1 ≤ i + g) (hig : i ≤ ig) (hi : i + 1 ≤ i') :
    (∀ x, (⟨1, i, fa⟩ : KIF).Holds x →
      (⟨1, i', f⟩ : KIF).cast R S ((⟨1, ig, g⟩ : KIF).cast .TRN .WRAP x) = (⟨1, i', f⟩ : KIF).cast R S x) ↔ TruncationSafe R fa g f := by
  -- nothing overflows
  have inner : ∀ x, IsKif 1 i fa x → (⟨1, ig, g⟩ : KIF).cast .TRN .WRAP x = rv .TRN g x ∧ IsKif 1 i g (rv .TRN g x) := by
    intro x hx
    have hk : IsKif 1 i g (rv .TRN g x) := by
      refine ⟨rv_grid .TRN g x, ?_, lt_of_le_of_lt (rv_trn_le g x).1 hx.2.2⟩
      have h1 := rv_mono .TRN g hx.2.1
      rwa [rv_of_grid .TRN g (by
        obtain ⟨n, hn⟩ := grid_mult (a := i) (b := -g) (by omega) (-1)
        refine ⟨n, ?_⟩
        rw [← hn]
        change -(_ * p2 i) = _
        push_cast
        ring)] at h1
    exact ⟨by rw [KIF.cast_eq_gq _ true rfl]; exact gq_of_kif true (by simp only [toInt_true]; omega) .TRN .WRAP (by decide) x (isKif_mono hk (by decide) le_rfl hig le_rfl), hk⟩
  have outer : ∀ c y, IsKif 1 i c y → (⟨1, i', f⟩ : KIF).cast R S y = rv R f y := by
    intro c y hy
    rw [KIF.cast_eq_gq _ true rfl]
    refine gq_of_kif true (by simp only [toInt_true]; omega) R S hS y ?_
    have := rv_range true R (f := f) (i0 := i) (f0 := c) hy (fun _ h => by omega)
    exact isKif_mono this (by decide) le_rfl hi le_rfl
  constructor
  · intro h
    by_contra hc
    obtain ⟨x, hx, hne⟩ := trunc_seen (R := R) hf hg hc
    have := h x hx
    rw [(inner x hx).1, outer g _ (inner x hx).2, outer fa x hx] at this
    exact hne this
  · intro h x hx
    rw [(inner x hx).1, outer g _ (inner x hx).2, outer fa x hx]
    exact trunc_unseen h hx.1

theorem truncationSafe_min (R : Rnd) (fa g f : ℤ) : TruncationSafe R fa (min fa g) f ↔ TruncationSafe R fa g f := by
  unfold TruncationSafe
  rcases le_or_gt fa g with h | h
  · simp [h]
  · rw [min_eq_right h.le]

/-- **C66**, rounding, exactly, for the types the code derives: a layer produces signed values with `fa` fractional bits, its result is stored in the
type derived from what the layers `outs` request, and read by an element with `f` fractional bits of a signed quantizer `q` in which nothing
overflows. The quantizer never sees a difference if and only if truncating to the requested number of bits is safe for its rounding mode. -/
theorem C66_derived_iff (i fa i' f : ℤ) (outs : List Down) (hreq : i + 1 ≤ (requestList outs).i) (q : FPQ) (hS : q.sat ≠ .SAT_SYM) (e : ℕ)
    (he : q.elems.getD e ⟨0, 0, 0⟩ = ⟨1, 1 + i' + f, 1 + i'⟩) (hf : 1 ≤ i + f) (ha : 1 ≤ i + fa) (hg : 1 ≤ i + (requestList outs).f) (hi : i + 1 ≤ i') :
    (∀ x, (⟨1, i, fa⟩ : KIF).Holds x → q.call e ((mergePrecision ⟨1, i, fa⟩ (requestList outs)).cast .TRN .WRAP x) = q.call e x) ↔
      TruncationSafe q.rnd fa (requestList outs).f f := by
  rw [← truncationSafe_min, ← C66_rounding_iff q.rnd q.sat hS i (mergePrecision ⟨1, i, fa⟩ (requestList outs)).i i' fa
    (min fa (requestList outs).f) f hf (by omega) (by unfold mergePrecision; dsimp only; split <;> omega) hi]
  unfold FPQ.call
  rw [he]
  rfl

/-- **C66**, the same for a quantizer without heterogeneous elements that reads the layer more than once: safe exactly if the rounding mode is `TRN`
or `RND`, or at most two bits are rounded away. -/
theorem C66_two_extra_bits_iff (n : ℕ) (i fa i' f : ℤ) (R : Rnd) (S : Sat) (hS : S ≠ .SAT_SYM) (hi : i + 1 ≤ i') (hmax : i' ≤ 65535) (hf : 1 ≤ i + f)
    (ha : 1 ≤ i + fa) :
    (∀ x, (⟨1, i, fa⟩ : KIF).Holds x → (FPQ.const (n + 1) 1 i' f R S).call 0 ((mergePrecision ⟨1, i, fa⟩
        (requestList [.quant (.const (n + 1) 1 i' f R S), .quant (.const (n + 1) 1 i' f R S)])).cast .TRN .WRAP x) =
      (FPQ.const (n + 1) 1 i' f R S).call 0 x) ↔ R = .TRN ∨ R = .RND ∨ fa ≤ f + 2 := by
  have hm : ∀ (a : ℤ) (n : ℕ), listMax (List.replicate (n + 1) a) = a := by
    intro a n
    induction n with
    | zero => rfl
    | succ n ih =>
      rw [List.replicate_succ, List.replicate_succ] at *
      change max a (listMax _) = a
      rw [ih, max_self]
  have hk : (FPQ.const (n + 1) 1 i' f R S).kif = ⟨1, i', f⟩ := by
    unfold FPQ.kif resultTKif FPQ.const
    simp only [List.map_replicate, hm]
    congr 1 <;> ring
  have hr : requestList [.quant (.const (n + 1) 1 i' f R S), .quant (.const (n + 1) 1 i' f R S)] = (FPQ.const (n + 1) 1 i' f R S).request := by
    simp [requestList, Down.request]
  rw [C66_derived_iff i fa i' f _ ?_ (FPQ.const (n + 1) 1 i' f R S) hS 0 rfl hf ha ?_ hi, hr]
  · unfold FPQ.request TruncationSafe
    rw [hk]
    cases R <;> simp [FPQ.const]
  · rw [hr]; unfold FPQ.request; rw [hk]; cases S <;> simp [FPQ.const] <;> omega
  · rw [hr]; unfold FPQ.request; rw [hk]; cases R <;> simp [FPQ.const] <;> omega

-- a kernel with 8 fractional bits, a quantizer to integers: safe with `RND`, not with `RND_CONV`
example : (∀ x, (⟨1, 4, 8⟩ : KIF).Holds x → (FPQ.const 3 1 5 0 .RND .SAT).call 0 ((mergePrecision ⟨1, 4, 8⟩
      (requestList [.quant (.const 3 1 5 0 .RND .SAT), .quant (.const 3 1 5 0 .RND .SAT)])).cast .TRN .WRAP x) = (FPQ.const 3 1 5 0 .RND .SAT).call 0 x) :=
  (C66_two_extra_bits_iff 2 4 8 5 0 .RND .SAT (by decide) (by decide) (by decide) (by decide) (by decide)).2 (.inr (.inl rfl))

example : ¬ (∀ x, (⟨1, 4, 8⟩ : KIF).Holds x → (FPQ.const 3 1 5 0 .RND_CONV .SAT).call 0 ((mergePrecision ⟨1, 4, 8⟩
      (requestList [.quant (.const 3 1 5 0 .RND_CONV .SAT), .quant (.const 3 1 5 0 .RND_CONV .SAT)])).cast .TRN .WRAP x) =
      (FPQ.const 3 1 5 0 .RND_CONV .SAT).call 0 x) := by
  rw [C66_two_extra_bits_iff 2 4 8 5 0 .RND_CONV .SAT (by decide) (by decide) (by decide) (by decide) (by decide)]
  decide

-- with two extra bits, as the code requests: safe for RND, not for RND_CONV; RND_MIN_INF is safe for one truncated bit
example : TruncationSafe .RND 8 2 0 ∧ ¬ TruncationSafe .RND_CONV 8 2 0 ∧ TruncationSafe .RND_MIN_INF 1 0 0 := by
  refine ⟨.inr (by decide), ?_, .inr ⟨rfl, rfl⟩⟩
  rintro (h | h)
  · omega
  · exact h

example : ¬ ∀ x, (⟨1, 4, 8⟩ : KIF).Holds x →
    (⟨1, 5, 0⟩ : KIF).cast .RND_CONV .SAT ((⟨1, 4, 2⟩ : KIF).cast .TRN .WRAP x) = (⟨1, 5, 0⟩ : KIF).cast .RND_CONV .SAT x := by
  rw [C66_rounding_iff .RND_CONV .SAT (by decide) 4 4 5 8 2 0 (by decide) (by decide) (by decide) (by decide)]
  rintro (h | h)
  · omega
  · exact h

end HGQ
