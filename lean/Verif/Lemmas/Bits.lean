import Verif.Model.Proxy
import Verif.Lemmas.Quantizer
import Verif.Props.FixedPoint

namespace HGQ

open Spec

theorem le_p2_clog {x : ℚ} (n : ℤ) (hx : 0 < x) : x ≤ p2 n ↔ Int.clog 2 x ≤ n := by
  unfold p2
  simpa using Int.le_zpow_iff_clog_le (b := 2) (x := n) (r := x) (by norm_num) hx

theorem lt_p2_log {x : ℚ} (n : ℤ) (hx : 0 < x) : x < p2 n ↔ Int.log 2 x < n := by
  unfold p2
  simpa using Int.lt_zpow_iff_log_lt (b := 2) (x := n) (r := x) (by norm_num) hx

theorem p2_le_log {x : ℚ} (n : ℤ) (hx : 0 < x) : p2 n ≤ x ↔ n ≤ Int.log 2 x := by
  unfold p2
  simpa using Int.zpow_le_iff_le_log (b := 2) (x := n) (r := x) (by norm_num) hx

theorem clipBits_le (i : WithBot ℤ) (lo : ℤ) : clipBits i lo ≤ 32 := by
  unfold clipBits; split <;> exact min_le_right _ _

theorem le_clipBits (i : WithBot ℤ) {lo : ℤ} (h : lo ≤ 32) : lo ≤ clipBits i lo := by
  unfold clipBits; split
  · exact le_min le_rfl h
  · exact le_min (le_max_right _ _) h

theorem le_clipBits_of {i : WithBot ℤ} {n : ℤ} (h : (n : WithBot ℤ) ≤ i) (lo : ℤ) (hn : n ≤ 32) :
    n ≤ clipBits i lo := by
  unfold clipBits; split
  · exact absurd h (WithBot.not_coe_le_bot n)
  · rename_i m
    have : n ≤ m := WithBot.coe_le_coe.mp h
    exact le_min (le_max_of_le_left this) hn

theorem clipBits_le_of {i : WithBot ℤ} {lo n : ℤ} (h : i ≤ (n : WithBot ℤ)) (hlo : lo ≤ n) :
    clipBits i lo ≤ n := by
  unfold clipBits; split
  · exact min_le_of_left_le hlo
  · rename_i m
    have : m ≤ n := WithBot.coe_le_coe.mp h
    exact min_le_of_left_le (max_le this hlo)

/-- clipping only helps when the value is below `2^32` -/
theorem lt_p2_clipBits {v : ℚ} {i : WithBot ℤ} {n lo : ℤ} (h : (n : WithBot ℤ) ≤ i) (hv : v < p2 n)
    (h32 : v < p2 32) : v < p2 (clipBits i lo) := by
  by_cases hn : n ≤ 32
  · exact lt_of_lt_of_le hv (p2_le_p2 (le_clipBits_of h lo hn))
  · have : 32 ≤ clipBits i lo := le_clipBits_of (n := 32) (le_trans (by exact_mod_cast (by omega)) h) lo le_rfl
    exact lt_of_lt_of_le h32 (p2_le_p2 this)

theorem le_p2_clipBits {v : ℚ} {i : WithBot ℤ} {n lo : ℤ} (h : (n : WithBot ℤ) ≤ i) (hv : v ≤ p2 n)
    (h32 : v ≤ p2 32) : v ≤ p2 (clipBits i lo) := by
  by_cases hn : n ≤ 32
  · exact le_trans hv (p2_le_p2 (le_clipBits_of h lo hn))
  · have : 32 ≤ clipBits i lo := le_clipBits_of (n := 32) (le_trans (by exact_mod_cast (by omega)) h) lo le_rfl
    exact le_trans h32 (p2_le_p2 this)

/-- the only value of a type of total width zero is 0 -/
theorem isKif_width_zero {k i f : ℤ} (hk : k = 0 ∨ k = 1) (h0 : k + i + f = 0) {v : ℚ} (h : IsKif k i f v) : v = 0 := by
  obtain ⟨⟨n, rfl⟩, h1, h2⟩ := h
  change -((k : ℚ) * p2 i) ≤ n * p2 (-f) at h1
  change (n : ℚ) * p2 (-f) < p2 i at h2
  have hp := p2_pos (-f)
  have hn : n = 0 := by
    rcases hk with rfl | rfl
    · have : i = -f := by omega
      rw [this] at h2
      have h3 : (n : ℚ) < 1 := by
        by_contra hc; push Not at hc
        have := mul_le_mul_of_nonneg_right hc hp.le
        linarith
      have h4 : (0 : ℚ) ≤ n := by
        by_contra hc; push Not at hc
        have := mul_neg_of_neg_of_pos hc hp
        norm_num at h1; linarith
      have : n < 1 := by exact_mod_cast h3
      have : 0 ≤ n := by exact_mod_cast h4
      omega
    · have : i = -f - 1 := by omega
      rw [this, p2_neg_pred] at h1 h2
      have h3 : (n : ℚ) < 1 / 2 := by
        by_contra hc; push Not at hc
        have := mul_le_mul_of_nonneg_right hc hp.le
        linarith
      have h4 : (-(1 / 2) : ℚ) ≤ n := by
        by_contra hc; push Not at hc
        have := mul_lt_mul_of_pos_right hc hp
        push_cast at h1
        linarith
      have h5 : (n : ℚ) < 1 := by linarith
      have h6 : (-1 : ℚ) < n := by linarith
      have : n < 1 := by exact_mod_cast h5
      have : -1 < n := by exact_mod_cast h6
      omega
  rw [hn]; simp

theorem isKif_mask {k i f : ℤ} (hk : k = 0 ∨ k = 1) {v : ℚ} (h : IsKif k i f v) :
    IsKif (maskKif k i f).k (maskKif k i f).i (maskKif k i f).f v := by
  unfold maskKif
  by_cases h0 : k + i + f = 0
  · have := isKif_width_zero hk h0 h
    subst this
    simp only [h0, ne_eq, not_true_eq_false, if_false, mul_zero]
    exact ⟨⟨0, by simp⟩, by simp, by norm_num⟩
  · simpa [h0] using h

theorem bitsExact_neg_covers {mn mx fbw v : ℚ} (hv : ∃ n : ℤ, v = n * p2 (-(tfRound fbw)))
    (h1 : mn ≤ v) (h2 : v ≤ mx) (hmn : -p2 32 ≤ mn) (hmx : mx < p2 32) :
    IsKif (bitsExact mn mx fbw false).k (bitsExact mn mx fbw false).i (bitsExact mn mx fbw false).f v := by
  unfold bitsExact
  simp only [Bool.false_eq_true, if_false]
  apply isKif_mask
  · split_ifs <;> simp
  refine ⟨hv, ?_, ?_⟩
  · change -(_ * p2 _) ≤ v
    split_ifs with hneg
    · have habs : |mn| = -mn := abs_of_neg hneg
      have hc : ceilLog2 |mn| = (Int.clog 2 |mn| : ℤ) := by
        unfold ceilLog2; rw [if_neg]; rw [habs]; linarith
      have hp : 0 < |mn| := by rw [habs]; linarith
      have : |mn| ≤ p2 (clipBits (max (ceilLog2 |mn|) (ceilLog2 |mx + p2 (-tfRound fbw)|)) (-tfRound fbw - 1)) := by
        apply le_p2_clipBits (n := Int.clog 2 |mn|)
        · rw [hc]; exact le_max_left _ _
        · exact (le_p2_clog _ hp).mpr le_rfl
        · rw [habs]; linarith
      rw [habs] at this ⊢
      push_cast; linarith
    · push_cast; linarith
  · change v < p2 _
    have hpf := p2_pos (-tfRound fbw)
    rcases lt_or_ge 0 (mx + p2 (-tfRound fbw)) with hp | hp
    · have habs : |mx + p2 (-tfRound fbw)| = mx + p2 (-tfRound fbw) := abs_of_pos hp
      rw [habs]
      have hc : ceilLog2 (mx + p2 (-tfRound fbw)) = (Int.clog 2 (mx + p2 (-tfRound fbw)) : ℤ) := by
        unfold ceilLog2; rw [if_neg hp.ne']
      apply lt_p2_clipBits (n := Int.clog 2 (mx + p2 (-tfRound fbw)))
      · rw [hc]; exact le_max_right _ _
      · have := (le_p2_clog _ hp).mpr le_rfl
        linarith
      · linarith
    · have := p2_pos (clipBits (max (ceilLog2 |mn|) (ceilLog2 |mx + p2 (-tfRound fbw)|)) (-tfRound fbw - if mn < 0 then 1 else 0))
      linarith

theorem bitsExact_pos_covers {mn mx fbw v : ℚ} (hv : ∃ n : ℤ, v = n * p2 (-(tfRound fbw)))
    (h2 : v ≤ mx) (hmx : mx < p2 32) :
    IsKif (bitsExact mn mx fbw true).k (bitsExact mn mx fbw true).i (bitsExact mn mx fbw true).f (max v 0) := by
  unfold bitsExact
  simp only [if_true]
  apply isKif_mask (.inl rfl)
  refine ⟨?_, ?_, ?_⟩
  · obtain ⟨n, rfl⟩ := hv
    rcases max_choice (n * p2 (-(tfRound fbw))) 0 with h | h
    · rw [h]; exact ⟨n, rfl⟩
    · rw [h]; exact ⟨0, by simp⟩
  · push_cast; simp
  · change max v 0 < p2 _
    rcases lt_or_ge 0 mx with hp | hp
    · have hm : max mx 0 = mx := max_eq_left hp.le
      rw [hm]
      have hc : floorLog2 mx = (Int.log 2 mx : ℤ) := by
        unfold floorLog2; rw [if_neg hp.ne']
      rw [hc]
      have hvm : max v 0 ≤ mx := max_le h2 hp.le
      apply lt_p2_clipBits (n := Int.log 2 mx + 1)
      · exact le_rfl
      · have := (lt_p2_log (Int.log 2 mx + 1) hp).mpr (by omega)
        linarith
      · linarith
    · have : max v 0 = 0 := max_eq_right (le_trans h2 hp)
      rw [this]; exact p2_pos _

/-- shape of the result -/
theorem bitsExact_wf (mn mx fbw : ℚ) (posOnly : Bool) (hf : -32 ≤ tfRound fbw) :
    ((bitsExact mn mx fbw posOnly).k = 0 ∨ (bitsExact mn mx fbw posOnly).k = 1) ∧
    0 ≤ (bitsExact mn mx fbw posOnly).k + (bitsExact mn mx fbw posOnly).i + (bitsExact mn mx fbw posOnly).f ∧
    ((bitsExact mn mx fbw posOnly).f = tfRound fbw ∨
      (bitsExact mn mx fbw posOnly) = ⟨0, 0, 0⟩) := by
  have key : ∀ (k : ℤ) (i : WithBot ℤ), (k = 0 ∨ k = 1) →
      ((maskKif k (clipBits i (-tfRound fbw - k)) (tfRound fbw)).k = 0 ∨
        (maskKif k (clipBits i (-tfRound fbw - k)) (tfRound fbw)).k = 1) ∧
      0 ≤ (maskKif k (clipBits i (-tfRound fbw - k)) (tfRound fbw)).k
        + (maskKif k (clipBits i (-tfRound fbw - k)) (tfRound fbw)).i
        + (maskKif k (clipBits i (-tfRound fbw - k)) (tfRound fbw)).f ∧
      ((maskKif k (clipBits i (-tfRound fbw - k)) (tfRound fbw)).f = tfRound fbw ∨
        maskKif k (clipBits i (-tfRound fbw - k)) (tfRound fbw) = ⟨0, 0, 0⟩) := by
    intro k i hk
    have h := le_clipBits i (lo := -tfRound fbw - k) (by omega)
    unfold maskKif
    by_cases h0 : k + clipBits i (-tfRound fbw - k) + tfRound fbw = 0
    · simp [h0]
    · simp only [ne_eq, h0, not_false_eq_true, if_true, mul_one, true_or, and_true]
      exact ⟨hk, by omega⟩
  unfold bitsExact
  cases posOnly
  · simp only [Bool.false_eq_true, if_false]
    apply key
    split_ifs <;> simp
  · simp only [if_true]
    exact key 0 _ (.inl rfl)

/-- rounding used by `evalQ` -/
def evalRnd (st : ℤ) : Rnd := if st = 3 then .TRN else .RND

theorem evalQ_rndMap (st : ℤ) (fbw x : ℚ) :
    evalQ st fbw x = rndMap (evalRnd st) (x * p2 (tfRound fbw)) * p2 (-(tfRound fbw)) := by
  rw [evalQ_eq]; unfold evalRnd
  split_ifs <;> rfl

/-- a fixed-point quantizer returns the rounded value when that is representable -/
theorem gfixed_of_isKif {k i f : ℤ} (hk : k = 0 ∨ k = 1) (hw : 0 ≤ k + i + f) (R : Rnd) {S : Sat} (hS : S ≠ .SAT_SYM)
    {x : ℚ} (h : IsKif k i f (rndMap R (x * p2 f) * p2 (-f))) :
    gfixedQuantizer x k (k + i + f) (k + i) R S = rndMap R (x * p2 f) * p2 (-f) := by
  by_cases h0 : k + i + f = 0
  · rw [isKif_width_zero hk h0 h, h0, gfixed_zero_bits]
  · rw [gfixed_pos_bits _ _ _ _ _ h0]
    have e1 : k + i + f - (k + i) = f := by ring
    have e2 : k + i - (k + i + f) = -f := by ring
    rw [e1, e2]
    obtain ⟨n, hn⟩ := rndMap_int R (x * p2 f)
    rw [hn] at h ⊢
    obtain ⟨-, h1, h2⟩ := h
    change -((k : ℚ) * p2 i) ≤ n * p2 (-f) at h1
    change (n : ℚ) * p2 (-f) < p2 i at h2
    congr 1
    have hpf := p2_pos f
    have hpi : p2 i * p2 f = p2 (i + f) := (p2_add _ _).symm
    have hnn : (n : ℚ) * p2 (-f) * p2 f = n := by rw [mul_assoc, p2_neg_mul, mul_one]
    have h1' : -((k : ℚ) * p2 (i + f)) ≤ n := by
      have := mul_le_mul_of_nonneg_right h1 hpf.le
      rw [hnn] at this
      calc -((k : ℚ) * p2 (i + f)) = -((k : ℚ) * p2 i) * p2 f := by rw [← hpi]; ring
        _ ≤ n := this
    have h2' : (n : ℚ) < p2 (i + f) := by
      have := mul_lt_mul_of_pos_right h2 hpf
      rw [hnn, hpi] at this; exact this
    obtain ⟨w, hwE⟩ := Int.eq_ofNat_of_zero_le hw
    have hw1 : 1 ≤ w := by omega
    rw [hwE]
    rcases hk with rfl | rfl
    · have hif : i + f = (w : ℤ) := by omega
      rw [hif, p2_natCast] at h1' h2'
      have h2'' : n < 2 ^ w := by exact_mod_cast h2'
      have h1'' : 0 ≤ n := by
        have : (0 : ℚ) ≤ n := by simpa using h1'
        exact_mod_cast this
      exact satMap_of_range S false hw1 (by simpa [lowB] using h1'') (by simp [highB]; omega) (fun h => absurd h hS)
    · have hif : i + f = ((w - 1 : ℕ) : ℤ) := by omega
      rw [hif, p2_natCast] at h1' h2'
      have h2'' : n < 2 ^ (w - 1) := by exact_mod_cast h2'
      have h1'' : -(2 ^ (w - 1)) ≤ n := by
        have : -((2 ^ (w - 1) : ℤ) : ℚ) ≤ n := by simpa using h1'
        exact_mod_cast this
      exact satMap_of_range S true hw1 (by simpa [lowB] using h1'') (by simp [highB]; omega) (fun h => absurd h hS)

theorem init_apply (k b i : ℤ) (R : Rnd) (S : Sat) (x : ℚ) :
    (KBI.init k b i).apply R S x = gfixedQuantizer x k b i R S := by
  unfold KBI.init KBI.apply
  split_ifs with h
  · rw [h]; simp only [gfixed_zero_bits]
  · rfl

theorem proxyQ_apply (b : KIF) (R : Rnd) (S : Sat) (x : ℚ) :
    (proxyQ b).apply R S x = gfixedQuantizer x b.k (b.k + b.i + b.f) (b.k + b.i) R S := init_apply _ _ _ _ _ _

/-- the proxy quantizer of a recorded range returns the rounded value if it is in the range -/
theorem proxyQ_bitsExact {mn mx fbw x : ℚ} (R : Rnd) {S : Sat} (hS : S ≠ .SAT_SYM)
    (hf : -32 ≤ tfRound fbw) (hmn : -p2 32 ≤ mn) (hmx : mx < p2 32)
    (h1 : mn ≤ rndMap R (x * p2 (tfRound fbw)) * p2 (-(tfRound fbw)))
    (h2 : rndMap R (x * p2 (tfRound fbw)) * p2 (-(tfRound fbw)) ≤ mx) :
    (proxyQ (bitsExact mn mx fbw false)).apply R S x
      = rndMap R (x * p2 (tfRound fbw)) * p2 (-(tfRound fbw)) := by
  have hv : ∃ n : ℤ, rndMap R (x * p2 (tfRound fbw)) * p2 (-(tfRound fbw)) = n * p2 (-(tfRound fbw)) := by
    obtain ⟨n, hn⟩ := rndMap_int R (x * p2 (tfRound fbw)); exact ⟨n, by rw [hn]⟩
  have hcov := bitsExact_neg_covers hv h1 h2 hmn hmx
  obtain ⟨w1, w2, w3⟩ := bitsExact_wf mn mx fbw false hf
  rw [proxyQ_apply]
  rcases w3 with w3 | w3
  · rw [w3] at hcov w2 ⊢
    exact gfixed_of_isKif w1 w2 R hS hcov
  · rw [w3] at hcov ⊢
    rw [show (0 : ℤ) + 0 + 0 = 0 from rfl, gfixed_zero_bits]
    exact (isKif_width_zero (.inl rfl) rfl hcov).symm

theorem proxyQ_bitsExact_pos {mn mx fbw x : ℚ} (R : Rnd) {S : Sat} (hS : S ≠ .SAT_SYM)
    (hf : -32 ≤ tfRound fbw) (hmx : mx < p2 32)
    (h0 : 0 ≤ rndMap R (x * p2 (tfRound fbw)) * p2 (-(tfRound fbw)))
    (h2 : rndMap R (x * p2 (tfRound fbw)) * p2 (-(tfRound fbw)) ≤ max mx 0) :
    (proxyQ (bitsExact mn mx fbw true)).apply R S x
      = rndMap R (x * p2 (tfRound fbw)) * p2 (-(tfRound fbw)) := by
  have hv : ∃ n : ℤ, rndMap R (x * p2 (tfRound fbw)) * p2 (-(tfRound fbw)) = n * p2 (-(tfRound fbw)) := by
    obtain ⟨n, hn⟩ := rndMap_int R (x * p2 (tfRound fbw)); exact ⟨n, by rw [hn]⟩
  have hcov : IsKif (bitsExact mn mx fbw true).k (bitsExact mn mx fbw true).i (bitsExact mn mx fbw true).f
      (rndMap R (x * p2 (tfRound fbw)) * p2 (-(tfRound fbw))) := by
    rcases lt_or_ge 0 mx with hp | hp
    · rw [max_eq_left hp.le] at h2
      have := bitsExact_pos_covers (mn := mn) hv h2 hmx
      rwa [max_eq_left h0] at this
    · rw [max_eq_right hp] at h2
      have he := le_antisymm h2 h0
      have hb := bitsExact_wf mn mx fbw true hf
      rw [he]
      refine ⟨⟨0, by simp⟩, ?_, p2_pos _⟩
      rcases hb.1 with hk | hk <;> rw [hk] <;> simp
      exact (zpow2_pos _).le
  obtain ⟨w1, w2, w3⟩ := bitsExact_wf mn mx fbw true hf
  rw [proxyQ_apply]
  rcases w3 with w3 | w3
  · rw [w3] at hcov w2 ⊢
    exact gfixed_of_isKif w1 w2 R hS hcov
  · rw [w3] at hcov ⊢
    rw [show (0 : ℤ) + 0 + 0 = 0 from rfl, gfixed_zero_bits]
    exact (isKif_width_zero (.inl rfl) rfl hcov).symm

end HGQ
