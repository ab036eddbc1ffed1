import Verif.Lemmas.Nearest
import Verif.Lemmas.Train32
import Verif.Lemmas.Net32

/-!
The float32 model under an arbitrary conforming rounding: numbers in the normal range are rounded as by `fl32`, and the computations
covered by `Fits32` and `Normal` conditions stay in the normal range.
-/

namespace HGQ

open Spec (IsFloat32 Conforming)

/-- 0 or in the normal range -/
def Nrm (x : ℚ) : Prop := x = 0 ∨ p2 (-126) ≤ |x| ∧ |x| < p2 127

theorem _root_.Spec.Conforming.eq {fl : ℚ → ℚ} (h : Conforming fl) {x : ℚ} (hx : Nrm x) : fl x = fl32 x := by
  rcases hx with rfl | ⟨h1, h2⟩
  · rw [h.zero, fl32_zero]
  · exact rounds_unique (h.normal x h1 h2)

theorem nrm_zero : Nrm 0 := .inl rfl

theorem grid_ge {x : ℚ} {e : ℤ} (h : ∃ n : ℤ, x = n * p2 e) : x = 0 ∨ p2 e ≤ |x| := by
  obtain ⟨n, rfl⟩ := h
  by_cases h0 : n = 0
  · left; rw [h0]; simp
  · right
    rw [abs_mul, abs_of_pos (p2_pos e)]
    have : (1 : ℚ) ≤ |(n : ℚ)| := by exact_mod_cast Int.one_le_abs h0
    nlinarith [p2_pos e]

theorem nrm_grid {x : ℚ} {e : ℤ} (h : ∃ n : ℤ, x = n * p2 e) (he : -126 ≤ e) (hb : |x| < p2 127) : Nrm x := by
  rcases grid_ge h with h | h
  · exact .inl h
  · exact .inr ⟨le_trans (p2_le_p2 he) h, hb⟩

/-- few units of a moderate grid are below the overflow threshold -/
theorem lt_huge {x : ℚ} {e : ℤ} {k : ℕ} (h : |x| ≤ 2 ^ k * p2 e) (hk : k ≤ 30) (he : e ≤ 92) : |x| < p2 127 := by
  refine lt_of_le_of_lt h ?_
  have : (2 : ℚ) ^ k = p2 k := by rw [p2_natCast]; push_cast; rfl
  rw [this, ← p2_add]
  exact p2_lt_p2 (by omega)

theorem conf_grid {fl : ℚ → ℚ} (h : Conforming fl) {x : ℚ} {e : ℤ} (hg : ∃ n : ℤ, x = n * p2 e) (he : -126 ≤ e) (he' : e ≤ 92)
    (hb : |x| ≤ p2 (e + 24)) : fl x = x := by
  rw [h.eq (nrm_grid hg he (lt_huge (k := 24) (e := e) (by rw [← p2_shift]; exact_mod_cast hb) (by norm_num) he'))]
  exact (isFloat32_of_grid hg hb).fl

theorem conf_half {fl : ℚ → ℚ} (h : Conforming fl) (x : ℚ) (hx : Hf x) (hb : |x| ≤ 2 ^ 23) : fl x = x := by
  refine conf_grid h (e := -1) ?_ (by norm_num) (by norm_num) ?_
  · obtain ⟨n, rfl⟩ := hx
    exact ⟨n, by unfold p2; norm_num; ring⟩
  · refine le_trans hb (le_of_eq ?_)
    unfold p2; norm_num

/-- one half added to a small float32 number -/
theorem nrm_half {s : ℚ} (hs : IsFloat32 s) (hb : |s| < 2 ^ 23) : Nrm (s + 1 / 2) := by
  have hup : |s + 1 / 2| < p2 127 := by
    have h1 := abs_add_le s (1 / 2)
    have h2 : |(1 / 2 : ℚ)| = 1 / 2 := by norm_num
    refine lt_huge (k := 24) (e := 0) ?_ (by norm_num) (by norm_num)
    rw [p2_zero]; linarith
  rcases lt_or_ge |s| (p2 (-2)) with h | h
  · right
    refine ⟨?_, hup⟩
    have h2 : p2 (-2) = 1 / 4 := by unfold p2; norm_num
    rw [h2] at h
    have := abs_lt.mp h
    rw [abs_of_pos (by linarith)]
    refine le_trans (p2_le_p2 (show (-126 : ℤ) ≤ -2 by norm_num)) ?_
    rw [h2]; linarith
  · refine nrm_grid (e := -25) ?_ (by norm_num) hup
    have h0 : s ≠ 0 := by
      intro h0; rw [h0, abs_zero] at h; linarith [p2_pos (-2)]
    have hl := (p2_le_log _ (abs_pos.mpr h0)).mp h
    obtain ⟨n, hn⟩ := grid_coarse (show (-25 : ℤ) ≤ Int.log 2 |s| - 23 by omega) hs.grid
    refine ⟨n + 2 ^ 24, ?_⟩
    conv_lhs => rw [hn]
    push_cast
    rw [add_mul]
    congr 1
    unfold p2; norm_num

/-- a value handed to a quantizer is 0 or, before and after scaling, in the normal range; the number of fractional bits is moderate -/
def Scaled32 (f : ℤ) (x : ℚ) : Prop :=
  -90 ≤ f ∧ f ≤ 90 ∧ (x = 0 ∨ (2 : ℚ) ^ (-126 : ℤ) ≤ |x| ∧ (2 : ℚ) ^ (-126 : ℤ) ≤ |x * (2 : ℚ) ^ f|)

theorem Scaled32.nrm {f : ℤ} {x : ℚ} (h : Scaled32 f x) {k : ℕ} (hk : k ≤ 30) (hb : |x * p2 f| < 2 ^ k) : Nrm (x * p2 f) := by
  rcases h.2.2 with h | ⟨-, h⟩
  · left; rw [h, zero_mul]
  · right
    exact ⟨h, lt_huge (k := k) (e := 0) (by rw [p2_zero]; linarith) hk (by norm_num)⟩

/-- multiples of a moderate unit are moderate -/
theorem scaled32_grid {x : ℚ} {F f : ℤ} (hg : ∃ n : ℤ, x = n * p2 (-F)) (hF : F ≤ 90) (hf : -32 ≤ f) (hf' : f ≤ 90) : Scaled32 f x := by
  refine ⟨by omega, hf', ?_⟩
  rcases grid_ge hg with h | h
  · exact .inl h
  · refine .inr ⟨le_trans (p2_le_p2 (by omega)) h, ?_⟩
    change p2 (-126) ≤ |x * p2 f|
    rw [abs_mul, abs_of_pos (p2_pos f)]
    calc p2 (-126) ≤ p2 (-F + f) := p2_le_p2 (by omega)
      _ = p2 (-F) * p2 f := p2_add _ _
      _ ≤ |x| * p2 f := mul_le_mul_of_nonneg_right h (p2_pos f).le

/-- the inference quantizer under a conforming rounding -/
theorem evalQ_conf {fl : ℚ → ℚ} (hc : Conforming fl) (st : ℤ) {fbw x : ℚ} (hx : IsFloat32 x)
    (hb : |x * p2 (tfRound fbw)| < 2 ^ 23) (hn : Scaled32 (tfRound fbw) x) : evalQF fl st fbw x = evalQF fl32 st fbw x := by
  unfold evalQF
  dsimp only
  generalize tfRound fbw = f at *
  have hs := hx.mul_p2 f
  rw [hc.eq (hn.nrm (k := 23) (by norm_num) hb), hs.fl, div_p2, div_p2, hc.eq (nrm_half hs hb)]
  obtain ⟨hnb, hd⟩ := round32_dist hs hb st
  have hcast : (if st = 3 then ((flr (x * p2 f) : ℤ) : ℚ) else ((flr (fl32 (x * p2 f + 1 / 2)) : ℤ) : ℚ)) =
      ((if st = 3 then flr (x * p2 f) else flr (fl32 (x * p2 f + 1 / 2)) : ℤ) : ℚ) := by split_ifs <;> rfl
  rw [hcast]
  generalize (if st = 3 then flr (x * p2 f) else flr (fl32 (x * p2 f + 1 / 2))) = n at *
  have hU := p2_pos (-f)
  have hq : IsFloat32 ((n : ℚ) * p2 (-f)) := isFloat32_p2mul n hnb.le _
  have hnq : |(n : ℚ)| < 2 ^ 24 := by exact_mod_cast hnb
  have hqb : |(n : ℚ) * p2 (-f)| ≤ 2 ^ 24 * p2 (-f) := by
    rw [abs_mul, abs_of_pos hU]; exact mul_le_mul_of_nonneg_right hnq.le hU.le
  rw [hc.eq (nrm_grid ⟨n, rfl⟩ (by have := hn.2.1; omega) (lt_huge hqb (by norm_num) (by have := hn.1; omega))), hq.fl]
  have hd' : |n * p2 (-f) - x| ≤ p2 (-f) := by
    have h1 : n * p2 (-f) - x = (n - x * p2 f) * p2 (-f) := by
      rw [sub_mul, mul_assoc x, p2_mul_neg, mul_one]
    rw [h1, abs_mul, abs_of_pos hU]
    calc _ ≤ 1 * p2 (-f) := mul_le_mul_of_nonneg_right hd hU.le
      _ = _ := one_mul _
  have hst := straightThrough hx hnb hd'
  -- the difference
  have hdn : Nrm (n * p2 (-f) - x) := by
    have hup : |n * p2 (-f) - x| < p2 127 := lt_huge (k := 0) (e := -f) (by simpa using hd') (by norm_num) (by have := hn.1; omega)
    rcases lt_or_ge |x| (p2 (-103)) with h | h
    · by_cases h0 : n = 0
      · rw [h0, Int.cast_zero, zero_mul, zero_sub] at hup ⊢
        rcases hn.2.2 with h | ⟨h, -⟩
        · left; rw [h, neg_zero]
        · right; rw [abs_neg] at hup ⊢; exact ⟨h, hup⟩
      · right
        refine ⟨?_, hup⟩
        have h1 : p2 (-f) ≤ |(n : ℚ) * p2 (-f)| := by
          rcases grid_ge ⟨n, rfl⟩ with h | h
          · exfalso
            rcases mul_eq_zero.mp h with h | h
            · exact h0 (by exact_mod_cast h)
            · exact hU.ne' h
          · exact h
        have h2 : p2 (-90) ≤ p2 (-f) := p2_le_p2 (by have := hn.2.1; omega)
        have h3 : p2 (-103) ≤ p2 (-91) := p2_le_p2 (by norm_num)
        have h4 : p2 (-90) = 2 * p2 (-91) := by rw [← p2_succ]; norm_num
        have h5 : p2 (-126) ≤ p2 (-91) := p2_le_p2 (by norm_num)
        have h6 := abs_sub_abs_le_abs_sub ((n : ℚ) * p2 (-f)) x
        linarith
    · refine nrm_grid (e := -126) ?_ le_rfl hup
      have h0 : x ≠ 0 := by
        intro h0; rw [h0, abs_zero] at h; linarith [p2_pos (-103)]
      have hl := (p2_le_log _ (abs_pos.mpr h0)).mp h
      obtain ⟨a, ha⟩ := grid_coarse (show (-126 : ℤ) ≤ Int.log 2 |x| - 23 by omega) hx.grid
      obtain ⟨b, hb⟩ := grid_coarse (show (-126 : ℤ) ≤ -f by have := hn.2.1; omega) (x := (n : ℚ) * p2 (-f)) ⟨n, rfl⟩
      exact ⟨b - a, by rw [hb]; conv_lhs => rw [ha]
                       push_cast; ring⟩
  rw [hc.eq hdn]
  -- the sum
  refine hc.eq ?_
  by_cases h0 : n = 0
  · left
    rw [h0, Int.cast_zero, zero_mul, zero_sub, hx.neg.fl, add_neg_cancel]
  · right
    set t := x + fl32 (n * p2 (-f) - x) with ht
    have h1 : p2 (-90) ≤ |fl32 t| := by
      rw [hst]
      rcases grid_ge ⟨n, rfl⟩ with h | h
      · exfalso
        rcases mul_eq_zero.mp h with h | h
        · exact h0 (by exact_mod_cast h)
        · exact hU.ne' h
      · exact le_trans (p2_le_p2 (by have := hn.2.1; omega)) h
    have h2 : |fl32 t| < p2 127 := by rw [hst]; exact lt_huge hqb (by norm_num) (by have := hn.1; omega)
    have hf1 : ∀ j : ℤ, IsFloat32 (p2 j) := fun j => ⟨1, j, by norm_num, by unfold p2; norm_num⟩
    constructor
    · by_contra hlt
      push Not at hlt
      have := fl32_abs_le (hf1 (-126)) hlt.le
      have h3 : p2 (-126) < p2 (-90) := p2_lt_p2 (by norm_num)
      linarith
    · by_contra hge
      push Not at hge
      rcases le_abs.mp hge with h | h
      · have := le_fl32_of_le (hf1 127) h
        exact absurd (lt_of_le_of_lt (le_abs_self _) h2) (not_lt.mpr this)
      · have := le_fl32_of_le (hf1 127) h
        rw [fl32_neg] at this
        exact absurd (lt_of_le_of_lt (neg_le_abs _) h2) (not_lt.mpr this)

/-- the inference quantizer in float32 returns few units -/
theorem evalQ32_units (st : ℤ) {fbw x : ℚ} (hx : IsFloat32 x) (hb : |x * p2 (tfRound fbw)| < 2 ^ 23) :
    ∃ m : ℤ, |m| < 2 ^ 24 ∧ evalQF fl32 st fbw x = m * p2 (-tfRound fbw) := by
  unfold evalQF
  dsimp only
  generalize tfRound fbw = f at *
  have hs := hx.mul_p2 f
  rw [hs.fl, div_p2]
  obtain ⟨hnb, hd⟩ := round32_dist hs hb st
  have hcast : (if st = 3 then ((flr (x * p2 f) : ℤ) : ℚ) else ((flr (fl32 (x * p2 f + 1 / 2)) : ℤ) : ℚ)) =
      ((if st = 3 then flr (x * p2 f) else flr (fl32 (x * p2 f + 1 / 2)) : ℤ) : ℚ) := by split_ifs <;> rfl
  rw [hcast]
  generalize (if st = 3 then flr (x * p2 f) else flr (fl32 (x * p2 f + 1 / 2))) = n at *
  have hU := p2_pos (-f)
  have hq : IsFloat32 ((n : ℚ) * p2 (-f)) := isFloat32_p2mul n hnb.le _
  rw [hq.fl]
  refine ⟨n, hnb, straightThrough hx hnb ?_⟩
  have h1 : n * p2 (-f) - x = (n - x * p2 f) * p2 (-f) := by
    rw [sub_mul, mul_assoc x, p2_mul_neg, mul_one]
  rw [h1, abs_mul, abs_of_pos hU]
  calc _ ≤ 1 * p2 (-f) := mul_le_mul_of_nonneg_right hd hU.le
    _ = _ := one_mul _

/-- the rounding modes under a conforming rounding: the same small integer -/
theorem rndMap_conf {fl : ℚ → ℚ} (hc : Conforming fl) (R : Rnd) {s : ℚ} (hs : IsFloat32 s) (hb : |s| < 2 ^ 22) :
    rndMapF fl R s = rndMapF fl32 R s ∧ (∃ n : ℤ, rndMapF fl32 R s = n ∧ |n| ≤ 2 ^ 22) := by
  have hb' : |s| < 2 ^ 23 := by linarith
  have habs : IsFloat32 |s| := by
    rcases abs_choice s with h | h <;> rw [h]
    · exact hs
    · exact hs.neg
  have hsig : ∀ n : ℤ, |n| ≤ 2 ^ 22 → fl ((n : ℚ) * tfSign s) = fl32 (n * tfSign s) ∧
      ∃ m : ℤ, fl32 ((n : ℚ) * tfSign s) = m ∧ |m| ≤ 2 ^ 22 := by
    intro n hn
    obtain ⟨m, hm, hmb⟩ : ∃ m : ℤ, (n : ℚ) * tfSign s = m ∧ |m| ≤ 2 ^ 22 := by
      rcases tfSign_cases s with ⟨-, h⟩ | ⟨-, h⟩ | ⟨-, h⟩ <;> rw [h]
      · exact ⟨n, by rw [mul_one], hn⟩
      · exact ⟨-n, by push_cast; ring, by rwa [abs_neg]⟩
      · exact ⟨0, by simp, by norm_num⟩
    have hq : |(m : ℚ)| ≤ 2 ^ 23 := by
      have : |(m : ℚ)| ≤ 2 ^ 22 := by exact_mod_cast hmb
      linarith
    rw [hm, conf_half hc _ (.int m) hq, fl_half (.int m) hq]
    exact ⟨rfl, m, rfl, hmb⟩
  have h3 : ∀ t : ℚ, |t| ≤ 2 ^ 22 → |flr t| ≤ 2 ^ 22 := fun t ht => by simpa [rnd32] using rnd32_abs 3 ht
  have h0 : ∀ t : ℚ, |t| ≤ 2 ^ 22 → |flr (fl32 (t + 1 / 2))| ≤ 2 ^ 22 := fun t ht => by simpa [rnd32] using rnd32_abs 0 ht
  cases R
  · exact ⟨rfl, _, rfl, h3 s hb.le⟩
  · simp only [rndMapF]
    rw [hc.eq (nrm_half hs hb')]
    exact ⟨rfl, _, rfl, h0 s hb.le⟩
  · refine ⟨rfl, _, rfl, ?_⟩
    have h := abs_le.mp hb.le
    have h1 := tfRound_mono (x := s) (y := ((2 ^ 22 : ℤ) : ℚ)) (by push_cast; linarith)
    have h2 := tfRound_mono (x := ((-2 ^ 22 : ℤ) : ℚ)) (y := s) (by push_cast; linarith)
    rw [tfRound_int] at h1 h2
    exact abs_le.mpr ⟨h2, h1⟩
  · exact hsig _ (h3 |s| (by rw [abs_abs]; exact hb.le))
  · simp only [rndMapF]
    rw [hc.eq (nrm_half habs.neg (by rw [abs_neg, abs_abs]; exact hb'))]
    have := hsig (-flr (fl32 (-|s| + 1 / 2))) (by rw [abs_neg]; exact h0 _ (by rw [abs_neg, abs_abs]; exact hb.le))
    push_cast at this
    exact this
  · simp only [rndMapF]
    rw [hc.eq (nrm_half hs.neg (by rw [abs_neg]; exact hb'))]
    exact ⟨rfl, -flr (fl32 (-s + 1 / 2)), by push_cast; rfl, by rw [abs_neg]; exact h0 _ (by rw [abs_neg]; exact hb.le)⟩
  · simp only [rndMapF]
    rw [hc.eq (nrm_half habs (by rw [abs_abs]; exact hb'))]
    exact hsig _ (h0 _ (by rw [abs_abs]; exact hb.le))

/-- the fixed-point quantizer under a conforming rounding -/
theorem gfixed_conf {fl : ℚ → ℚ} (hc : Conforming fl) {x : ℚ} {k b i : ℤ} (R : Rnd) (S : Sat) (hx : IsFloat32 x)
    (hk : k = 0 ∨ k = 1) (hb0 : 0 ≤ b) (hb22 : b ≤ 22) (hb : |x * p2 (b - i)| < 2 ^ 22) (hn : Scaled32 (b - i) x) :
    gfixedQuantizerF fl x k b i R S = gfixedQuantizerF fl32 x k b i R S := by
  have hs := hx.mul_p2 (b - i)
  unfold gfixedQuantizerF
  dsimp only
  rw [hc.eq (hn.nrm (k := 22) (by norm_num) hb), hs.fl]
  obtain ⟨h1, n, h2, h3⟩ := rndMap_conf hc R hs hb
  rw [h1, h2]
  have h3' : |(n : ℚ)| ≤ 2 ^ 22 := by exact_mod_cast h3
  obtain ⟨g1, -, -⟩ := satMapF_eq (conf_half hc) S ⟨n, rfl⟩ h3' hk hb0 hb22
  obtain ⟨g2, g3, g4⟩ := satMap32_eq S ⟨n, rfl⟩ h3' hk hb0 hb22
  rw [g1, g2, div_p2]
  have hg : ∃ m : ℤ, satMap S n k b * p2 (-(b - i)) = m * p2 (-(b - i) - 1) := by
    obtain ⟨m, hm⟩ := g3
    exact ⟨m, by rw [hm, p2_neg_pred]; ring⟩
  have hup : |satMap S n k b * p2 (-(b - i))| ≤ p2 (-(b - i) - 1 + 24) := by
    rw [abs_mul, abs_of_pos (p2_pos _), show -(b - i) - 1 + 24 = 23 + -(b - i) by ring, p2_add]
    refine mul_le_mul_of_nonneg_right (le_trans g4 (le_of_eq ?_)) (p2_pos _).le
    unfold p2; norm_num
  have hq := isFloat32_of_grid hg hup
  have hcq : fl (satMap S n k b * p2 (-(b - i))) = satMap S n k b * p2 (-(b - i)) :=
    conf_grid hc hg (by have := hn.2.1; omega) (by have := hn.1; omega) hup
  rw [hcq, hq.fl]
  split_ifs
  · rw [mul_one, hcq, hq.fl]
  · rw [mul_zero, hc.zero, fl32_zero]


theorem gfixed_conf_zero {fl : ℚ → ℚ} (hc : Conforming fl) (x : ℚ) (k i : ℤ) (R : Rnd) (S : Sat) :
    gfixedQuantizerF fl x k 0 i R S = 0 := by
  unfold gfixedQuantizerF; simp [hc.zero]

theorem init_applyF {fl : ℚ → ℚ} (hc : Conforming fl) (k b i : ℤ) (R : Rnd) (S : Sat) (x : ℚ) :
    (KBI.init k b i).applyF fl R S x = gfixedQuantizerF fl x k b i R S := by
  unfold KBI.init KBI.applyF
  split_ifs with h
  · rw [h]; simp only [gfixed_conf_zero hc]
  · rfl

/-! ### layers with a kernel -/

/-- What keeps the computation at output position `p` in the normal range: the unit `2^-F` of the sums is not tiny; weights and biases are 0
or in the normal range before and after scaling. -/
structure LinLayer.Normal32 (L : LinLayer) (s : QState) (p : ℕ) (F : ℤ) : Prop where
  unit : F ≤ 90
  weight : ∀ ij ∈ L.taps p, Scaled32 (tfRound (L.kq.clip (L.kfbw ij.2))) (L.kernel ij.2)
  bias : ∀ b, L.bias = some b → Scaled32 (tfRound (maxFbw s.fbw (redElems L.qShape L.chLoc (L.chan p)))) (b (L.chan p))

section
variable {fl : ℚ → ℚ} {L : LinLayer} {s : QState} {x : List ℚ} {p : ℕ} {fx fw F : ℤ}

theorem qkernel_conf (hc : Conforming fl) (h : L.Fits32 s x p fx fw F) (hn : L.Normal32 s p F) {ij : ℕ × ℕ} (hij : ij ∈ L.taps p) :
    L.qkernelF fl ij.2 = L.qkernelF fl32 ij.2 := by
  obtain ⟨h1, h2, -⟩ := h.weight ij hij
  exact evalQ_conf hc _ h1 h2 (hn.weight ij hij)

theorem qbias_loc (hw : L.WF s) {b : ℕ → ℚ} (hb : L.bias = some b) (c : ℕ) : L.qbiasF fl L.jitLoc s.fbw b c = L.qbiasF fl L.chLoc s.fbw b c := by
  rcases hw.loc with h | ⟨h1, h2⟩ | h
  · rw [h]
  · unfold LinLayer.qbiasF; rw [redElems_one h1 h2, redElems_one h1 h2]
  · rw [hb] at h; cases h

theorem qbias_conf (hc : Conforming fl) (h : L.Fits32 s x p fx fw F) (hn : L.Normal32 s p F) {b : ℕ → ℚ} (hb : L.bias = some b) :
    L.qbiasF fl L.chLoc s.fbw b (L.chan p) = L.qbiasF fl32 L.chLoc s.fbw b (L.chan p) := by
  obtain ⟨h1, h2⟩ := h.bias b hb
  exact evalQ_conf hc _ h1 h2 (hn.bias b hb)

theorem jitBias_conf (hc : Conforming fl) (hw : L.WF s) (h : L.Fits32 s x p fx fw F) (hn : L.Normal32 s p F) :
    L.jitBiasF fl s.fbw (L.chan p) = L.jitBiasF fl32 s.fbw (L.chan p) := by
  unfold LinLayer.jitBiasF
  cases hb : L.bias with
  | none => rfl
  | some b =>
    simp only
    rw [qbias_loc hw hb, qbias_loc hw hb]
    exact qbias_conf hc h hn hb

theorem preact_conf (hc : Conforming fl) (h : L.Fits32 s x p fx fw F) (hn : L.Normal32 s p F) (order : ℕ → Acc (ℕ × ℕ))
    (ho : (order p).terms.Perm (L.taps p)) (b32 b : ℕ → ℚ) (hbe : b32 (L.chan p) = b (L.chan p)) (hb0 : L.bias = none → b (L.chan p) = 0)
    (hbg : ∃ n : ℤ, b (L.chan p) = n * p2 (-F))
    (hsum : ((L.taps p).map fun ij => |x.getD ij.1 0 * L.qkernelF fl32 ij.2|).sum + |b (L.chan p)| < 2 ^ 23 * p2 (-F)) :
    L.preactF fl order (L.qkernelF fl) b32 x p = L.preact (L.qkernelF fl32) b x p := by
  obtain ⟨-, hzg, hzb⟩ := preact32_eq h order ho b32 b hbe hb0 hbg hsum
  have hp := p2_pos (-F)
  have hF := hn.unit
  have h3 := h.three
  have hk : ∀ ij ∈ L.taps p, L.qkernelF fl ij.2 = L.qkernelF fl32 ij.2 := fun ij hij => qkernel_conf hc h hn hij
  have hwg : ∀ ij ∈ L.taps p, ∃ n : ℤ, L.qkernelF fl ij.2 = n * p2 (-(F - fx)) := by
    intro ij hij
    obtain ⟨h1, h2, h3⟩ := h.weight ij hij
    rw [hk ij hij]
    exact grid_coarse (by have := h.grid; omega) (evalQ32_grid L.kq.strategy h1 h2)
  have hFF : fx + (F - fx) = F := by ring
  have hmap : ((L.taps p).map fun ij => |x.getD ij.1 0 * L.qkernelF fl ij.2|) =
      (L.taps p).map fun ij => |x.getD ij.1 0 * L.qkernelF fl32 ij.2| :=
    List.map_congr_left fun ij hij => by rw [hk ij hij]
  have hmap' : ((L.taps p).map fun ij => x.getD ij.1 0 * L.qkernelF fl ij.2) =
      (L.taps p).map fun ij => x.getD ij.1 0 * L.qkernelF fl32 ij.2 :=
    List.map_congr_left fun ij hij => by rw [hk ij hij]
  have hrun := Acc.runF_exact (fl := fl) (fun ij : ℕ × ℕ => x.getD ij.1 0) (fun ij => L.qkernelF fl ij.2) fx (F - fx)
    (fun y h1 h2 => by rw [hFF] at h1 h2; exact conf_grid hc h1 (by omega) (by omega) h2) (L.taps p)
    h.input hwg (by
      rw [hmap, hFF]
      change _ ≤ 2 ^ 24 * p2 (-F)
      have := abs_nonneg (b (L.chan p))
      linarith) (order p) ho
  have hpre : L.preact (L.qkernelF fl32) b x p = ((L.taps p).map fun ij => x.getD ij.1 0 * L.qkernelF fl32 ij.2).sum + b (L.chan p) := rfl
  unfold LinLayer.preactF
  simp only
  rw [hrun, hmap']
  cases hb : L.bias with
  | none => simp only; rw [hpre, hb0 hb, add_zero]
  | some b' =>
    simp only
    rw [hbe, ← hpre]
    refine conf_grid hc hzg (by omega) (by omega) ?_
    have h24 : p2 (-F + 24) = 2 ^ 24 * p2 (-F) := by rw [p2_add, mul_comm]; congr 1
    rw [h24]; linarith

theorem float_of_units {z : ℚ} (hg : ∃ n : ℤ, z = n * p2 (-F)) (hb : |z| < 2 ^ 23 * p2 (-F)) : IsFloat32 z := by
  have h24 : p2 (-F + 24) = 2 ^ 24 * p2 (-F) := by rw [p2_add, mul_comm]; congr 1
  have hp := p2_pos (-F)
  exact isFloat32_of_grid hg (by rw [h24]; linarith)

theorem fusedQBias_conf (hc : Conforming fl) (hw : L.WF s) (hp : p < prodL L.outShape) (h : L.Fits32 s x p fx fw F)
    (hn : L.Normal32 s p F) : L.fusedQBiasF fl s (L.chan p) = L.fusedQBiasF fl32 s (L.chan p) := by
  cases hb : L.bias with
  | none => unfold LinLayer.fusedQBiasF; rw [hb]
  | some b =>
    have hq := qbias_conf hc h hn hb
    obtain ⟨h1, h2⟩ := h.bias b hb
    obtain ⟨n, hnn⟩ := evalQ32_grid L.paq.strategy h1 h2
    have hs := hn.bias b hb
    have hev : |L.qbiasF fl32 L.chLoc s.fbw b (L.chan p)| ≤ 2 ^ 25 *
        p2 (-tfRound (maxFbw s.fbw (redElems L.qShape L.chLoc (L.chan p)))) := by
      obtain ⟨m, hm, he⟩ : ∃ m : ℤ, |m| < 2 ^ 24 ∧ evalQF fl32 L.paq.strategy
          (maxFbw s.fbw (redElems L.qShape L.chLoc (L.chan p))) (b (L.chan p)) =
          m * p2 (-tfRound (maxFbw s.fbw (redElems L.qShape L.chLoc (L.chan p)))) := by
        exact evalQ32_units _ h1 h2
      change |evalQF fl32 _ _ _| ≤ _
      rw [he, abs_mul, abs_of_pos (p2_pos _)]
      refine mul_le_mul_of_nonneg_right ?_ (p2_pos _).le
      have : |(m : ℚ)| < 2 ^ 24 := by exact_mod_cast hm
      linarith
    unfold LinLayer.fusedQBiasF
    rw [hb]
    simp only
    rw [hq]
    set B := L.qbiasF fl32 L.chLoc s.fbw b (L.chan p) with hB
    have hBn : B = n * p2 (-tfRound (maxFbw s.fbw (redElems L.qShape L.chLoc (L.chan p)))) := hnn
    generalize tfRound (maxFbw s.fbw (redElems L.qShape L.chLoc (L.chan p))) = f at *
    have : fl (p2 (-f - 1) + B) = fl32 (p2 (-f - 1) + B) := by
      refine hc.eq (nrm_grid (e := -f - 1) ⟨1 + 2 * n, ?_⟩ (by have := hs.2.1; omega) ?_)
      · rw [hBn, p2_neg_pred]; push_cast; ring
      · refine lt_huge (k := 26) (e := -f) ?_ (by norm_num) (by have := hs.1; omega)
        have h5 := abs_add_le (p2 (-f - 1)) B
        rw [abs_of_pos (p2_pos (-f - 1)), p2_neg_pred] at h5
        rw [p2_neg_pred]
        have := p2_pos (-f)
        linarith
    rw [this]

theorem quant_conf (hc : Conforming fl) (hw : L.WF s) (hp : p < prodL L.outShape) (h : L.Fits32 s x p fx fw F) (hn : L.Normal32 s p F)
    (hall : ∀ e < prodL L.qShape, -32 ≤ s.fbw e) (order : ℕ → Acc (ℕ × ℕ)) (ho : (order p).terms.Perm (L.taps p)) :
    L.preactF fl order (L.qkernelF fl) (L.jitBiasF fl s.fbw) x p = L.preact (L.qkernelF fl32) (L.jitBiasF fl32 s.fbw) x p ∧
    Scaled32 (tfRound (s.fbw (L.elem p))) (L.preact (L.qkernelF fl32) (L.jitBiasF fl32 s.fbw) x p) ∧
    L.quantF fl s order x p = L.quantF fl32 s order x p := by
  have hq := p2_pos (-tfRound (s.fbw (L.elem p)))
  have hbg := jitBias32_grid hw hp h
  have hb0 : L.bias = none → L.jitBiasF fl32 s.fbw (L.chan p) = 0 := fun hb => by unfold LinLayer.jitBiasF; rw [hb]
  have hsum : ((L.taps p).map fun ij => |x.getD ij.1 0 * L.qkernelF fl32 ij.2|).sum + |L.jitBiasF fl32 s.fbw (L.chan p)| <
      2 ^ 23 * p2 (-F) := by have := h.sum; change _ + _ + p2 _ < 2 ^ 23 * p2 _ at this; linarith
  obtain ⟨h1, h2, h3⟩ := preact32_eq h order ho (L.jitBiasF fl32 s.fbw) (L.jitBiasF fl32 s.fbw) rfl hb0 hbg hsum
  have h1' := preact_conf hc h hn order ho (L.jitBiasF fl s.fbw) (L.jitBiasF fl32 s.fbw) (jitBias_conf hc hw h hn) hb0 hbg hsum
  have hel := elemOf_lt hw.shape hp
  have hact := h.act _ hel
  have hF := hn.unit
  have hlow : -32 ≤ tfRound (s.fbw (L.elem p)) := tfRound_ge (by exact_mod_cast hall _ hel)
  change tfRound (s.fbw (L.elem p)) + 3 ≤ F at hact
  have hsc := scaled32_grid h2 hF hlow (by omega)
  refine ⟨h1', hsc, ?_⟩
  unfold LinLayer.quantF
  rw [h1, h1', hw.clip]
  have := scaled_lt h3 (show tfRound (s.fbw (L.elem p)) + 1 ≤ F by omega)
  exact evalQ_conf hc _ (float_of_units h2 h3) (by linarith) hsc

theorem klayer_conf (hc : Conforming fl) (hw : L.WF s) (hp : p < prodL L.outShape) (h : L.Fits32 s x p fx fw F) (hn : L.Normal32 s p F)
    (order : ℕ → Acc (ℕ × ℕ)) (ho : (order p).terms.Perm (L.taps p)) :
    L.preactF fl order (L.qkernelF fl) (L.fusedQBiasF fl s) x p =
      L.preactF fl32 order (L.qkernelF fl32) (L.fusedQBiasF fl32 s) x p := by
  obtain ⟨b1, b2, b3⟩ := fusedQBias32_eq hw hp h
  have hq := p2_pos (-tfRound (s.fbw (L.elem p)))
  have hb0 : L.bias = none → L.fusedQBiasF fl32 s (L.chan p) = 0 := fun hb => by unfold LinLayer.fusedQBiasF; rw [hb]
  have hsum : ((L.taps p).map fun ij => |x.getD ij.1 0 * L.qkernelF fl32 ij.2|).sum + |L.fusedQBiasF fl32 s (L.chan p)| <
      2 ^ 23 * p2 (-F) := by have := h.sum; change _ + _ + p2 _ < 2 ^ 23 * p2 _ at this; linarith
  rw [(preact32_eq h order ho (L.fusedQBiasF fl32 s) (L.fusedQBiasF fl32 s) rfl hb0 b2 hsum).1]
  exact preact_conf hc h hn order ho _ _ (fusedQBias_conf hc hw hp h hn) hb0 b2 hsum

/-- the proxy of a layer under a conforming rounding -/
theorem proxyOut_conf (hc : Conforming fl) (hw : L.WF s) (aggressive : Bool) (hp : p < prodL L.outShape)
    (hfit : L.Fits32 s x p fx fw F) (hn : L.Normal32 s p F) (order : ℕ → Acc (ℕ × ℕ)) (ho : (order p).terms.Perm (L.taps p))
    (hbits : (L.bitsAt s L.reluAct p).k + (L.bitsAt s L.reluAct p).i + (L.bitsAt s L.reluAct p).f ≤ 22)
    (hrelu : L.reluAct = true → (L.reluKif s).k + (L.reluKif s).i + (L.reluKif s).f ≤ 21)
    (lo hi : ℚ) (ht : Traced s (L.elem p) lo hi) (hall : ∀ e < prodL L.qShape, -32 ≤ s.fbw e)
    (h1 : lo ≤ L.quantF fl32 s order x p) (h2 : L.quantF fl32 s order x p ≤ hi) :
    L.proxyOutF fl s (proxySat aggressive) order x p = L.proxyOutF fl32 s (proxySat aggressive) order x p := by
  have hqe := quant32_eq hw hp hfit order ho
  obtain ⟨hz, hzg, hzb⟩ := klayer32_eq hw hp hfit order ho
  have hzc := klayer_conf hc hw hp hfit hn order ho
  have hzf := float_of_units hzg hzb
  have hw' := twin_wf hw
  have hR := proxyRnd_cases L.paq.strategy L.canBiasCover
  have hF := hn.unit
  have h3 := hfit.three
  rw [hqe] at h1 h2
  have hrnd : -32 ≤ tfRound (s.fbw (L.elem p)) := tfRound_ge (by exact_mod_cast ht.fb)
  have hbe : ∀ po, L.bitsAt s po p = bitsExact lo hi (s.fbw (L.elem p)) po := by
    intro po; unfold LinLayer.bitsAt; rw [ht.mn, ht.mx, WithTop.untopD_coe, WithBot.unbotD_coe]
  have hact := hfit.act _ (elemOf_lt hw.shape hp)
  change tfRound (s.fbw (L.elem p)) + 3 ≤ F at hact
  have hfge : ∀ po, -32 ≤ (bitsExact lo hi (s.fbw (L.elem p)) po).f := by
    intro po
    rcases (bitsExact_wf lo hi (s.fbw (L.elem p)) po hrnd).2.2 with h | h
    · rw [h]; exact hrnd
    · rw [h]; norm_num
  cases hr : L.reluAct with
  | false =>
    unfold LinLayer.proxyOutF
    simp only [hr, Bool.false_eq_true, if_false]
    rw [hzc, hz]
    rw [hr] at hbits
    change (KBI.init _ _ _).applyF fl _ _ _ = (KBI.init _ _ _).applyF fl32 _ _ _
    rw [init_applyF hc, init_apply32]
    rw [hbe] at hbits ⊢
    have hwf := bitsExact_wf lo hi (s.fbw (L.elem p)) false hrnd
    have hf3 := bitsExact_f_le (lo := lo) (hi := hi) (posOnly := false) hrnd hfit.three hact
    refine gfixed_conf hc _ _ hzf hwf.1 hwf.2.1 hbits ?_ ?_ <;> rw [add_sub_cancel_left]
    · exact scaled_lt hzb (by omega)
    · exact scaled32_grid hzg hF (hfge _) (by omega)
  | true =>
    unfold LinLayer.proxyOutF
    simp only [hr, if_true]
    rw [hzc, hz]
    rw [hr] at hbits
    set R := proxyRnd L.paq.strategy L.canBiasCover with hRdef
    set t := L.reluKif s with htdef
    have ctx := reluCtx_of hw' hp ht h1 h2 hall
    change ReluCtx lo hi (s.fbw (L.elem p)) _ t.k t.i t.f at ctx
    obtain ⟨fAdd, hfa, hfa0, hfa1⟩ : ∃ fAdd : ℤ, (if R = .TRN then (0 : ℤ) else if R = .RND then 1 else 2) = fAdd ∧ 0 ≤ fAdd ∧ fAdd ≤ 1 := by
      rcases hR with h | h <;> rw [h]
      · exact ⟨0, by simp, by norm_num, by norm_num⟩
      · exact ⟨1, by simp, by norm_num, by norm_num⟩
    rw [hfa]
    have htf : t.f + 3 ≤ F := by
      have he := elemOf_lt hw.shape hp
      have hne : ((List.range (prodL L.qShape)).map fun e =>
          bitsExact ((s.mn e).untopD 0) ((s.mx e).unbotD 0) (s.fbw e) false).map (·.f) ≠ [] := by
        simp only [ne_eq, List.map_eq_nil_iff, List.range_eq_nil]
        omega
      obtain ⟨b, hb, hbf⟩ := List.mem_map.mp (listMax_mem hne)
      obtain ⟨e, he', rfl⟩ := List.mem_map.mp hb
      change listMax _ + 3 ≤ F
      rw [← hbf]
      have hel := List.mem_range.mp he'
      exact bitsExact_f_le (tfRound_ge (by exact_mod_cast hall e hel)) hfit.three (hfit.act e hel)
    have hwidth : 0 ≤ t.k + t.i + t.f := by
      have := (bitsExact_wf lo hi (s.fbw (L.elem p)) false hrnd).2.1
      have := ctx.hk; have := ctx.hi; have := ctx.hF
      omega
    have htlow : -32 ≤ t.f := by
      have := hfge false; have := ctx.hF
      omega
    have ht21 := hrelu hr
    -- first quantizer
    have hsub : t.k + t.i + t.f + fAdd - (t.k + t.i) = t.f + fAdd := by ring
    have hq1 : (KBI.init t.k (t.k + t.i + t.f + fAdd) (t.k + t.i)).applyF fl .TRN (proxySat aggressive) ((L.twin s).klayer s x p) =
        (KBI.init t.k (t.k + t.i + t.f + fAdd) (t.k + t.i)).applyF fl32 .TRN (proxySat aggressive) ((L.twin s).klayer s x p) := by
      rw [init_applyF hc, init_apply32]
      refine gfixed_conf hc _ _ hzf ctx.hK (by omega) (by omega) ?_ ?_ <;> rw [hsub]
      · exact scaled_lt hzb (by omega)
      · exact scaled32_grid hzg hF (by omega) (by omega)
    have hq32 : (KBI.init t.k (t.k + t.i + t.f + fAdd) (t.k + t.i)).applyF fl32 .TRN (proxySat aggressive) ((L.twin s).klayer s x p) =
        (KBI.init t.k (t.k + t.i + t.f + fAdd) (t.k + t.i)).apply .TRN (proxySat aggressive) ((L.twin s).klayer s x p) := by
      rw [init_apply, init_apply32]
      refine gfixed32_eq _ (.inl rfl) hzg hzb ctx.hK (by omega) (by omega) ?_
      rw [hsub]
      exact scaled_lt hzb (by omega)
    rw [hq1, hq32, init_apply]
    change (KBI.init _ _ _).applyF fl _ _ _ = (KBI.init _ _ _).applyF fl32 _ _ _
    rw [init_applyF hc, init_apply32]
    rw [hbe] at hbits ⊢
    have hwf := bitsExact_wf lo hi (s.fbw (L.elem p)) true hrnd
    rcases le_or_gt hi 0 with hneg | hpos
    · rw [bitsExact_pos_zero hrnd hneg]
      change gfixedQuantizerF fl _ _ (0 + 0 + 0) _ _ _ = gfixedQuantizerF fl32 _ _ (0 + 0 + 0) _ _ _
      rw [show (0 : ℤ) + 0 + 0 = 0 from rfl, gfixed_conf_zero hc, gfixed32_zero_bits]
    · have hfF := (ctx.facts hpos).1
      obtain ⟨w, hwd⟩ := Int.eq_ofNat_of_zero_le (show 0 ≤ t.k + t.i + t.f + fAdd by omega)
      have hwd' : t.k + t.i + t.f + fAdd = (w : ℤ) := hwd
      obtain ⟨sg, hsg⟩ : ∃ sg : Bool, t.k = sg.toInt := by
        rcases ctx.hK with h | h
        · exact ⟨false, by rw [h]; rfl⟩
        · exact ⟨true, by rw [h]; rfl⟩
      have htype := C01_output_in_type ((L.twin s).klayer s x p) sg w (t.k + t.i) .TRN (proxySat aggressive)
      rw [← hsg, ← hwd'] at htype
      have hy0 : w = 0 → gfixedQuantizer ((L.twin s).klayer s x p) t.k (t.k + t.i + t.f + fAdd) (t.k + t.i) .TRN (proxySat aggressive) = 0 := by
        intro h0; rw [hwd', h0, Nat.cast_zero, gfixed_zero_bits]
      generalize gfixedQuantizer ((L.twin s).klayer s x p) t.k (t.k + t.i + t.f + fAdd) (t.k + t.i) .TRN (proxySat aggressive) = y at htype hy0 ⊢
      have hy : ∃ n : ℤ, relu y = n * p2 (-(t.f + fAdd)) ∧ 0 ≤ n ∧ n < 2 ^ 22 := by
        rcases Nat.eq_zero_or_pos w with h0 | h0
        · exact ⟨0, by rw [hy0 h0]; simp [relu], le_rfl, by norm_num⟩
        · obtain ⟨n, hn, -, hn2⟩ := (isApFixed_iff h0 _ _).mp htype
          have hexp : t.k + t.i - (w : ℤ) = -(t.f + fAdd) := by omega
          rw [hexp] at hn
          have hw22 : w ≤ 22 := by omega
          have hpw : (2 : ℤ) ^ w ≤ 2 ^ 22 := pow_le_pow_right₀ (by norm_num) hw22
          have hpw1 : (2 : ℤ) ^ (w - 1) ≤ 2 ^ 22 := pow_le_pow_right₀ (by norm_num) (by omega)
          have hn3 : n < 2 ^ 22 := by
            unfold highB at hn2
            split_ifs at hn2 <;> omega
          refine ⟨max n 0, ?_, le_max_right _ _, max_lt hn3 (by norm_num)⟩
          unfold relu
          rw [hn]
          push_cast
          rw [max_mul_of_nonneg _ _ (p2_pos _).le, zero_mul]
      obtain ⟨n, hn, hn0, hn22⟩ := hy
      have hnq : |(n : ℚ)| < 2 ^ 22 := by
        rw [abs_of_nonneg (by exact_mod_cast hn0)]
        exact_mod_cast hn22
      have hp2 := p2_pos (-(t.f + fAdd))
      rcases hwf.2.2 with hfe | hze
      swap
      · rw [hze]
        change gfixedQuantizerF fl _ _ (0 + 0 + 0) _ _ _ = gfixedQuantizerF fl32 _ _ (0 + 0 + 0) _ _ _
        rw [show (0 : ℤ) + 0 + 0 = 0 from rfl, gfixed_conf_zero hc, gfixed32_zero_bits]
      have hnb : |relu y| < 2 ^ 23 * p2 (-(t.f + fAdd)) := by
        rw [hn, abs_mul, abs_of_pos hp2]
        exact mul_lt_mul_of_pos_right (by linarith) hp2
      refine gfixed_conf hc _ _ (float_of_units ⟨n, hn⟩ hnb) hwf.1 hwf.2.1 hbits ?_ ?_ <;> rw [add_sub_cancel_left]
      · rw [hn, mul_assoc, ← p2_add, abs_mul, abs_of_pos (p2_pos _)]
        have : p2 (-(t.f + fAdd) + (bitsExact lo hi (s.fbw (L.elem p)) true).f) ≤ 1 := by
          have := p2_le_p2 (show -(t.f + fAdd) + (bitsExact lo hi (s.fbw (L.elem p)) true).f ≤ 0 by omega)
          rwa [p2_zero] at this
        calc |(n : ℚ)| * _ ≤ |(n : ℚ)| * 1 := mul_le_mul_of_nonneg_left this (abs_nonneg _)
          _ < 2 ^ 22 := by linarith
      · exact scaled32_grid ⟨n, hn⟩ (by omega) (hfge _) (by omega)

end

end HGQ
