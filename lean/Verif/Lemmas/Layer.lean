import Verif.Model.Layer
import Verif.Lemmas.Shape
import Verif.Lemmas.Bits
import Verif.Props.Bits

namespace HGQ
open Spec

theorem tfRound_ge {a : ℤ} {x : ℚ} (h : (a : ℚ) ≤ x) : a ≤ tfRound x := by
  have := (abs_le.mp (tfRound_bounds x)).2
  have h3 : ((a - 1 : ℤ) : ℚ) < tfRound x := by push_cast; linarith
  have : a - 1 < tfRound x := by exact_mod_cast h3
  omega

/-! ### maxima of bitwidths -/

theorem maxFbw_const {fbw : ℕ → ℚ} {c : ℚ} : ∀ {es : List ℕ}, es ≠ [] → (∀ e ∈ es, fbw e = c) → maxFbw fbw es = c
  | [e], _, h => h e (by simp)
  | e :: e' :: es, _, h => by
    change max (fbw e) (maxFbw fbw (e' :: es)) = c
    rw [h e (by simp), maxFbw_const (es := e' :: es) (by simp) (fun x hx => h x (by simp [hx]))]
    exact max_self _

theorem maxFbw_congr {fbw fbw' : ℕ → ℚ} : ∀ {es : List ℕ}, (∀ e ∈ es, fbw e = fbw' e) → maxFbw fbw es = maxFbw fbw' es
  | [], _ => rfl
  | [e], h => h e (by simp)
  | e :: e' :: es, h => by
    have h1 := h e (by simp)
    have h2 := maxFbw_congr (es := e' :: es) (fun x hx => h x (by simp [hx]))
    change max (fbw e) (maxFbw fbw (e' :: es)) = max (fbw' e) (maxFbw fbw' (e' :: es))
    rw [h1, h2]

/-! ### one element per channel when the bias can absorb the rounding -/

theorem compat_refl : ∀ {os qs : List ℕ}, Compat os qs → Compat qs qs
  | [], [], _ => trivial
  | o :: os, q :: qs, h => ⟨by rcases h.2.1 with rfl | rfl <;> simp [h.1], .inr rfl, compat_refl h.2.2⟩
  | [], _ :: _, h => h.elim
  | _ :: _, [], h => h.elim

theorem bcast_self : ∀ {qs idx : List ℕ}, ValidIdx qs idx → bcastIdx qs idx = idx
  | [], [], _ => rfl
  | q :: qs, i :: is, h => by
    rw [bcastIdx, bcast_self h.2]
    split_ifs with h1
    · have := h.1; rw [h1] at this; congr 1; omega
    · rfl
  | [], _ :: _, h => h.elim
  | _ :: _, [], h => h.elim

theorem elemOf_self {qs : List ℕ} {e : ℕ} (he : e < prodL qs) : elemOf qs qs e = e := by
  unfold elemOf
  rw [bcast_self (valid_unravel he), ravel_unravel he]

/-- shape consequence of `can_bias_cover_rnd` -/
theorem cover_shape {bs : Option (List ℕ)} {qs : List ℕ} {loc : ChLoc} (h : canBiasCoverRnd bs (1 :: qs) loc = true) :
    (∀ q ∈ qs, q = 1) ∨ (loc = .last ∧ ∀ q ∈ qs.dropLast, q = 1) := by
  unfold canBiasCoverRnd at h
  cases bs with
  | none => simp at h
  | some bs =>
    simp only at h
    split_ifs at h with h1 h2
    · left; intro q hq; exact prodL_eq_one h2 q (by simp [hq])
    · cases loc with
      | first =>
        simp at h
        left; exact prodL_eq_one h.1
      | last =>
        simp only [decide_eq_true_eq] at h
        right
        refine ⟨rfl, ?_⟩
        intro q hq
        cases qs with
        | nil => simp at hq
        | cons a l =>
          have := prodL_eq_one h.1
          rw [List.dropLast_cons_cons] at this
          exact this q (List.mem_cons_of_mem _ hq)

theorem cover_one_elem {bs : Option (List ℕ)} {os qs : List ℕ} {loc : ChLoc} (hc : Compat os qs)
    (h : canBiasCoverRnd bs (1 :: qs) loc = true) {p : ℕ} (hp : p < prodL os) {e : ℕ}
    (he : e ∈ redElems qs loc (chanOf os loc p)) : e = elemOf os qs p := by
  unfold redElems at he
  rw [List.mem_filter, List.mem_range, decide_eq_true_eq] at he
  obtain ⟨he1, he2⟩ := he
  have hv := valid_unravel hp
  have hve := valid_unravel he1
  have hl : (unravel os p).length = qs.length := by rw [unravel_length, compat_length hc]
  have hl' : (bcastIdx qs (unravel os p)).length = qs.length := by
    have := unravel_length qs (ravel qs (bcastIdx qs (unravel os p)))
    rwa [unravel_ravel (valid_bcast hc hv)] at this
  have hle : (unravel qs e).length = qs.length := unravel_length _ _
  have hbb : bcastIdx qs (bcastIdx qs (unravel os p)) = bcastIdx qs (unravel os p) := bcast_self (valid_bcast hc hv)
  have key : unravel qs e = bcastIdx qs (unravel os p) := by
    rw [← bcast_self hve, ← hbb]
    rcases cover_shape h with h1 | ⟨rfl, h1⟩
    · exact bcast_all_one h1 (by rw [hle, hl'])
    · apply bcast_dropLast_one h1 hle hl'
      rw [he2, atLoc_bcast _ hc hv]; rfl
  unfold elemOf
  rw [← key, ravel_unravel he1]

/-! ### rounding: proxy pre-activation against HGQ pre-activation -/

/-- the rounded value of the proxy's pre-activation equals HGQ's quantized value when the proxy bias carries the
half-LSB and truncates -/
theorem flr_half_shift (z : ℚ) (f : ℤ) : flr ((z + p2 (-f - 1)) * p2 f) = flr (z * p2 f + 1 / 2) := by
  rw [p2_neg_pred]
  have : p2 (-f) / 2 * p2 f = 1 / 2 := by
    have := p2_neg_mul f
    calc p2 (-f) / 2 * p2 f = (p2 (-f) * p2 f) / 2 := by ring
      _ = 1 / 2 := by rw [this]
  rw [add_mul, this]

/-- width zero when the approximate count is zero -/
theorem exact_zero_of_actBw {mn mx fbw : ℚ} {relu : Bool} (hf : -32 ≤ fbw)
    (hmn : ∃ n : ℤ, mn = n * p2 (-tfRound fbw)) (hmx : ∃ n : ℤ, mx = n * p2 (-tfRound fbw)) (hle : mn ≤ mx)
    (h : ¬ 0 < actBw mn mx fbw relu) :
    (bitsExact mn mx fbw relu).k + ((bitsExact mn mx fbw relu).i) + (bitsExact mn mx fbw relu).f = 0 := by
  obtain ⟨a, ha⟩ := hmn
  obtain ⟨b, hb⟩ := hmx
  have h1 := C32_act_bw_partial mn mx fbw relu a b hf ha hb hle
  have h2 := (bitsExact_wf mn mx fbw relu (tfRound_ge (by exact_mod_cast hf))).2.1
  unfold actBwExact at h1
  simp only at h1
  omega

theorem proxyQ_zero {b : KIF} (h : b.k + b.i + b.f = 0) (R : Rnd) (S : Sat) (x : ℚ) : (proxyQ b).apply R S x = 0 := by
  rw [proxyQ_apply, h, gfixed_zero_bits]

/-! ### the two-quantizer proxy of a relu layer -/

/-- the positive type is empty when nothing positive was recorded -/
theorem bitsExact_pos_zero {mn mx fbw : ℚ} (hf : -32 ≤ tfRound fbw) (h : mx ≤ 0) :
    (bitsExact mn mx fbw true).k + (bitsExact mn mx fbw true).i + (bitsExact mn mx fbw true).f = 0 := by
  unfold bitsExact
  simp only [if_true]
  have h1 : max mx 0 = 0 := max_eq_right h
  have h2 : clipBits ((floorLog2 (max mx 0)).map (· + 1)) (-tfRound fbw - 0) = -tfRound fbw := by
    rw [h1]
    change min (-tfRound fbw - 0) 32 = _
    omega
  rw [h2]
  unfold maskKif
  simp

structure ReluCtx (mn mx fbw v : ℚ) (K I F : ℤ) : Prop where
  hf : -32 ≤ tfRound fbw
  hmn : -p2 32 ≤ mn
  hmx : mx < p2 32
  gmx : ∃ n : ℤ, mx = n * p2 (-tfRound fbw)
  gv : ∃ n : ℤ, v = n * p2 (-tfRound fbw)
  h1 : mn ≤ v
  h2 : v ≤ mx
  hK : K = 0 ∨ K = 1
  hk : (bitsExact mn mx fbw false).k ≤ K
  hi : (bitsExact mn mx fbw false).i ≤ I
  hF : (bitsExact mn mx fbw false).f ≤ F

/-- facts about the recorded type when something positive was recorded -/
theorem ReluCtx.facts {mn mx fbw v : ℚ} {K I F : ℤ} (c : ReluCtx mn mx fbw v K I F) (hpos : 0 < mx) :
    tfRound fbw ≤ F ∧ v + p2 (-tfRound fbw) ≤ p2 I ∧ -((K : ℚ) * p2 I) ≤ v ∧ 0 ≤ K + I + F ∧
      -tfRound fbw ≤ I := by
  have hwf := bitsExact_wf mn mx fbw false c.hf
  have hcm := bitsExact_neg_covers c.gmx (le_trans c.h1 c.h2) le_rfl c.hmn c.hmx
  have hcv := bitsExact_neg_covers c.gv c.h1 c.h2 c.hmn c.hmx
  have hk := c.hk; have hi := c.hi; have hF := c.hF
  generalize hb : bitsExact mn mx fbw false = b at *
  obtain ⟨hk01, hw, hz⟩ := hwf
  have hw1 : b.k + b.i + b.f ≠ 0 := by
    intro h0
    have := isKif_width_zero hk01 h0 hcm
    linarith
  have hfe : b.f = tfRound fbw := by
    rcases hz with h | h
    · exact h
    · rw [h] at hw1; simp at hw1
  have hif : -tfRound fbw ≤ b.i := by rcases hk01 with h | h <;> omega
  obtain ⟨n, hn⟩ := c.gv
  have hp := p2_pos (-tfRound fbw)
  have hvi : v + p2 (-tfRound fbw) ≤ p2 b.i := by
    have h3 : v < p2 b.i := hcv.2.2
    obtain ⟨m, hm, _⟩ := p2_int_of_nonneg (a := b.i + tfRound fbw) (by omega)
    have hsplit : p2 b.i = m * p2 (-tfRound fbw) := by
      rw [← hm, ← p2_add]; congr 1; ring
    rw [hsplit, hn] at h3 ⊢
    have h4 : (n : ℚ) < m := lt_of_mul_lt_mul_right h3 hp.le
    have h5 : n + 1 ≤ m := by exact_mod_cast h4
    have h6 : ((n : ℚ) + 1) ≤ m := by exact_mod_cast h5
    have := mul_le_mul_of_nonneg_right h6 hp.le
    linarith
  refine ⟨by omega, le_trans hvi (p2_le_p2 hi), ?_, ?_⟩
  · have h3 : -((b.k : ℚ) * p2 b.i) ≤ v := hcv.2.1
    have h4 : (b.k : ℚ) * p2 b.i ≤ K * p2 I := by
      have hkK : (b.k : ℚ) ≤ K := by exact_mod_cast hk
      have hK0 : (0 : ℚ) ≤ K := by rcases c.hK with h | h <;> rw [h] <;> norm_num
      exact mul_le_mul hkK (p2_le_p2 hi) (p2_pos _).le hK0
    linarith
  · exact ⟨by omega, by omega⟩

theorem relu_nonpos {x : ℚ} (h : x ≤ 0) : relu x = 0 := max_eq_right h

/-- truncating proxy of a relu layer -/
theorem relu_proxy_trn {mn mx fbw v z : ℚ} {K I F : ℤ} (c : ReluCtx mn mx fbw v K I F) {S : Sat} (hS : S ≠ .SAT_SYM)
    (hv : v = (flr (z * p2 (tfRound fbw)) : ℚ) * p2 (-tfRound fbw)) :
    (proxyQ (bitsExact mn mx fbw true)).apply .TRN S (relu ((KBI.init K (K + I + F + 0) (K + I)).apply .TRN S z))
      = relu v := by
  by_cases hpos : 0 < mx
  · obtain ⟨hfF, hup, hlow, hw, hIf⟩ := c.facts hpos
    set f := tfRound fbw with hfdef
    have hpf := p2_pos f
    have hpnf := p2_pos (-f)
    set t : ℚ := (flr (z * p2 F) : ℚ) * p2 (-F) with ht
    have hz1 : v ≤ z ∧ z < v + p2 (-f) := by
      have h1 : ((flr (z * p2 f) : ℤ) : ℚ) ≤ z * p2 f := Int.floor_le _
      have h2 : z * p2 f < (flr (z * p2 f) : ℤ) + 1 := Int.lt_floor_add_one _
      have e : z = z * p2 f * p2 (-f) := by rw [mul_assoc, p2_mul_neg, mul_one]
      constructor
      · rw [hv]; nth_rewrite 2 [e]; exact mul_le_mul_of_nonneg_right h1 hpnf.le
      · rw [hv, e, show (flr (z * p2 f * p2 (-f) * p2 f) : ℚ) * p2 (-f) + p2 (-f)
          = ((flr (z * p2 f * p2 (-f) * p2 f) : ℚ) + 1) * p2 (-f) by ring]
        rw [show z * p2 f * p2 (-f) * p2 f = z * p2 f by rw [← e]]
        exact mul_lt_mul_of_pos_right h2 hpnf
    have htz : t ≤ z := by
      have h1 : ((flr (z * p2 F) : ℤ) : ℚ) ≤ z * p2 F := Int.floor_le _
      have := mul_le_mul_of_nonneg_right h1 (p2_pos (-F)).le
      rwa [mul_assoc, p2_mul_neg, mul_one] at this
    obtain ⟨n, hn⟩ := c.gv
    have hvt : v ≤ t := by
      obtain ⟨m, hm, _⟩ := p2_int_of_nonneg (a := F - f) (by omega)
      have e1 : v = ((n * m : ℤ) : ℚ) * p2 (-F) := by
        rw [hn]; push_cast; rw [← hm, mul_assoc, ← p2_add]; congr 2; ring
      have h3 : ((n * m : ℤ) : ℚ) ≤ z * p2 F := by
        have := mul_le_mul_of_nonneg_right hz1.1 (p2_pos F).le
        rwa [e1, mul_assoc, p2_neg_mul, mul_one] at this
      have h4 : (n * m : ℤ) ≤ flr (z * p2 F) := Int.le_floor.mpr h3
      rw [e1]
      exact mul_le_mul_of_nonneg_right (by exact_mod_cast h4) (p2_pos _).le
    have hkif : IsKif K I F t := by
      refine ⟨⟨_, rfl⟩, ?_, ?_⟩
      · change -((K : ℚ) * p2 I) ≤ t; linarith
      · change t < p2 I; linarith [hz1.2]
    have hq1 : (KBI.init K (K + I + F + 0) (K + I)).apply .TRN S z = t := by
      rw [init_apply, add_zero]
      exact gfixed_of_isKif c.hK hw .TRN hS hkif
    rw [hq1]
    have hfl : (flr (relu t * p2 f) : ℚ) * p2 (-f) = relu v := by
      rcases le_or_gt 0 t with h0 | h0
      · have hrt : relu t = t := max_eq_left h0
        have hfl : flr (t * p2 f) = n := by
          apply Int.floor_eq_iff.mpr
          constructor
          · have := mul_le_mul_of_nonneg_right hvt hpf.le
            rwa [hn, mul_assoc, p2_neg_mul, mul_one] at this
          · have h5 : t < v + p2 (-f) := by linarith [hz1.2]
            have := mul_lt_mul_of_pos_right h5 hpf
            rwa [hn, show ((n : ℚ) * p2 (-f) + p2 (-f)) * p2 f = (n + 1) * (p2 (-f) * p2 f) by ring, p2_neg_mul,
              mul_one] at this
        have hn0 : 0 ≤ n := by
          rw [← hfl]; exact Int.floor_nonneg.mpr (mul_nonneg h0 hpf.le)
        have hv0 : 0 ≤ v := by rw [hn]; exact mul_nonneg (by exact_mod_cast hn0) hpnf.le
        rw [hrt, hfl, ← hn]; exact (max_eq_left hv0).symm
      · rw [relu_nonpos h0.le, relu_nonpos (by linarith)]
        simp [flr]
    have := proxyQ_bitsExact_pos (mn := mn) (mx := mx) (fbw := fbw) (x := relu t) .TRN hS c.hf c.hmx
      (by change 0 ≤ (flr (relu t * p2 f) : ℚ) * p2 (-f); rw [hfl]; exact le_max_right _ _)
      (by change (flr (relu t * p2 f) : ℚ) * p2 (-f) ≤ _; rw [hfl]; exact max_le_max c.h2 le_rfl)
    rw [this]; exact hfl
  · push Not at hpos
    rw [proxyQ_zero (bitsExact_pos_zero c.hf hpos), relu_nonpos (le_trans c.h2 hpos)]

theorem gfixed_sat_nonpos {z : ℚ} {K I F : ℤ} (hK : K = 0 ∨ K = 1)
    (h : (flr (z * p2 F) : ℚ) * p2 (-F) < -((K : ℚ) * p2 I)) :
    gfixedQuantizer z K (K + I + F) (K + I) .TRN .SAT ≤ 0 := by
  by_cases h0 : K + I + F = 0
  · rw [h0, gfixed_zero_bits]
  · rw [gfixed_pos_bits _ _ _ _ _ h0]
    have e1 : K + I + F - (K + I) = F := by ring
    have e2 : K + I - (K + I + F) = -F := by ring
    rw [e1, e2]
    apply mul_nonpos_of_nonpos_of_nonneg _ (p2_pos _).le
    change clipByValue (flr (z * p2 F)) _ _ ≤ 0
    unfold clipByValue
    have hK0 : (0 : ℚ) ≤ K := by rcases hK with h | h <;> rw [h] <;> norm_num
    apply max_le
    · apply min_le_of_left_le
      have h1 : (flr (z * p2 F) : ℚ) * p2 (-F) < 0 := lt_of_lt_of_le h (by
        have := mul_nonneg hK0 (p2_pos I).le; linarith)
      by_contra hc
      push Not at hc
      have := mul_nonneg hc.le (p2_pos (-F)).le
      linarith
    · have := p2_pos (K + I + F - K)
      have := mul_nonneg this.le hK0
      nlinarith

/-- rounding proxy of a relu layer: the first quantizer keeps one more fractional bit and truncates -/
theorem relu_proxy_rnd {mn mx fbw v z : ℚ} {K I F : ℤ} (c : ReluCtx mn mx fbw v K I F) {S : Sat} (hS : S ≠ .SAT_SYM)
    (hv : v = (flr (z * p2 (tfRound fbw) + 1 / 2) : ℚ) * p2 (-tfRound fbw))
    (hov : S = .SAT ∨ S = .WRAP) :
    (proxyQ (bitsExact mn mx fbw true)).apply .RND S (relu ((KBI.init K (K + I + F + 1) (K + I)).apply .TRN S z))
      = relu v := by
  by_cases hpos : 0 < mx
  · obtain ⟨hfF, hup, hlow, hw, hIf⟩ := c.facts hpos
    set f := tfRound fbw with hfdef
    have hpf := p2_pos f
    have hpnf := p2_pos (-f)
    set G := F + 1 with hG
    set t : ℚ := (flr (z * p2 G) : ℚ) * p2 (-G) with ht
    obtain ⟨n, hn⟩ := c.gv
    have hnfl : flr (z * p2 f + 1 / 2) = n := by
      have h1 : (flr (z * p2 f + 1 / 2) : ℚ) * p2 (-f) = n * p2 (-f) := by rw [← hv, hn]
      have := mul_right_cancel₀ hpnf.ne' h1
      exact_mod_cast this
    have hz1 : (n : ℚ) - 1 / 2 ≤ z * p2 f ∧ z * p2 f < n + 1 / 2 := by
      have := Int.floor_eq_iff.mp hnfl
      constructor <;> linarith [this.1, this.2]
    have htz : t ≤ z := by
      have h1 : ((flr (z * p2 G) : ℤ) : ℚ) ≤ z * p2 G := Int.floor_le _
      have := mul_le_mul_of_nonneg_right h1 (p2_pos (-G)).le
      rwa [mul_assoc, p2_mul_neg, mul_one] at this
    have htu : t * p2 f < n + 1 / 2 := lt_of_le_of_lt (mul_le_mul_of_nonneg_right htz hpf.le) hz1.2
    have htl : (n : ℚ) - 1 / 2 ≤ t * p2 f := by
      obtain ⟨m, hm, _⟩ := p2_int_of_nonneg (a := F - f) (by omega)
      -- (n - 1/2) * 2^(G-f) = (2n-1) * m
      have e1 : ((n : ℚ) - 1 / 2) * p2 (G - f) = (((2 * n - 1) * m : ℤ) : ℚ) := by
        have : G - f = F - f + 1 := by omega
        rw [this, p2_succ, hm]; push_cast; ring
      have e2 : p2 f * p2 (G - f) = p2 G := by rw [← p2_add]; congr 1; ring
      have h3 : (((2 * n - 1) * m : ℤ) : ℚ) ≤ z * p2 G := by
        rw [← e1, ← e2, ← mul_assoc]
        exact mul_le_mul_of_nonneg_right hz1.1 (p2_pos _).le
      have h4 : ((2 * n - 1) * m : ℤ) ≤ flr (z * p2 G) := Int.le_floor.mpr h3
      have h5 : ((n : ℚ) - 1 / 2) * p2 (G - f) ≤ flr (z * p2 G) := by rw [e1]; exact_mod_cast h4
      have h6 := mul_le_mul_of_nonneg_right h5 (p2_pos (f - G)).le
      have e3 : p2 (G - f) * p2 (f - G) = 1 := by rw [← p2_add]; simp [p2_zero]
      have e4 : p2 (f - G) = p2 (-G) * p2 f := by rw [← p2_add]; congr 1; ring
      rw [mul_assoc, e3, mul_one, e4, ← mul_assoc] at h6
      exact h6
    have hrt : (flr (relu t * p2 f + 1 / 2) : ℚ) * p2 (-f) = relu v := by
      rcases le_or_gt 0 t with h0 | h0
      · have hfl : flr (t * p2 f + 1 / 2) = n := Int.floor_eq_iff.mpr ⟨by linarith, by linarith⟩
        have hn0 : 0 ≤ n := by
          rw [← hfl]; exact Int.floor_nonneg.mpr (by have := mul_nonneg h0 hpf.le; linarith)
        have hv0 : 0 ≤ v := by rw [hn]; exact mul_nonneg (by exact_mod_cast hn0) hpnf.le
        rw [show relu t = t from max_eq_left h0, hfl, ← hn]; exact (max_eq_left hv0).symm
      · have h7 : t * p2 f < 0 := mul_neg_of_neg_of_pos h0 hpf
        have h8 : (n : ℚ) < 1 := by linarith
        have hn0 : n ≤ 0 := by have : n < 1 := by exact_mod_cast h8
                               omega
        have hv0 : v ≤ 0 := by
          rw [hn]; exact mul_nonpos_of_nonpos_of_nonneg (by exact_mod_cast hn0) hpnf.le
        rw [relu_nonpos h0.le, relu_nonpos hv0]
        norm_num [flr]
    have hupt : t < p2 I := by
      have h9 : t < v + p2 (-f) := by
        have := mul_lt_mul_of_pos_right htu hpnf
        rw [mul_assoc, p2_mul_neg, mul_one] at this
        rw [hn]; nlinarith
      linarith
    have fin : relu ((KBI.init K (K + I + F + 1) (K + I)).apply .TRN S z) = relu t →
        (proxyQ (bitsExact mn mx fbw true)).apply .RND S (relu ((KBI.init K (K + I + F + 1) (K + I)).apply .TRN S z))
          = relu v := by
      intro hq1
      rw [hq1]
      have := proxyQ_bitsExact_pos (mn := mn) (mx := mx) (fbw := fbw) (x := relu t) .RND hS c.hf c.hmx
        (by change 0 ≤ (flr (relu t * p2 f + 1 / 2) : ℚ) * p2 (-f); rw [hrt]; exact le_max_right _ _)
        (by change (flr (relu t * p2 f + 1 / 2) : ℚ) * p2 (-f) ≤ _; rw [hrt]; exact max_le_max c.h2 le_rfl)
      rw [this]; exact hrt
    have eb : K + I + F + 1 = K + I + G := by omega
    by_cases hlo : -((K : ℚ) * p2 I) ≤ t
    · apply fin
      have hkif : IsKif K I G t := ⟨⟨_, rfl⟩, hlo, hupt⟩
      rw [init_apply, eb]
      congr 1
      exact gfixed_of_isKif c.hK (by omega) .TRN hS hkif
    · push Not at hlo
      have hK0 : (0 : ℚ) ≤ K := by rcases c.hK with h | h <;> rw [h] <;> norm_num
      have ht0 : t ≤ 0 := by
        have := mul_nonneg hK0 (p2_pos I).le
        linarith
      rcases hov with rfl | rfl
      · apply fin
        rw [init_apply, eb, relu_nonpos ht0, relu_nonpos (gfixed_sat_nonpos c.hK hlo)]
      · -- the first quantizer wraps to just below 2^I, which the second one rounds up to 2^I and wraps to 0
        have hvK : v = -((K : ℚ) * p2 I) := by
          obtain ⟨m, hm, _⟩ := p2_int_of_nonneg (a := I + f) (by omega)
          have hI : p2 I = m * p2 (-f) := by
            rw [← hm, ← p2_add]; congr 1; ring
          have h1 : v * p2 f = n := by rw [hn, mul_assoc, p2_neg_mul, mul_one]
          have h2 : -((K : ℚ) * p2 I) * p2 f = ((-(K * m) : ℤ) : ℚ) := by
            rw [hI]; push_cast
            calc -((K : ℚ) * (m * p2 (-f))) * p2 f = -(K * m) * (p2 (-f) * p2 f) := by ring
              _ = _ := by rw [p2_neg_mul]; ring
          have h3 := mul_le_mul_of_nonneg_right hlow hpf.le
          rw [h1, h2] at h3
          have h4 := mul_lt_mul_of_pos_right hlo hpf
          rw [h2] at h4
          have h5 : -(K * m) ≤ n := by exact_mod_cast h3
          have h6 : (n : ℚ) < ((-(K * m) + 1 : ℤ) : ℚ) := by push_cast at h4 ⊢; linarith
          have h7 : n < -(K * m) + 1 := by exact_mod_cast h6
          have h8 : n = -(K * m) := by omega
          have h9 : v * p2 f = -((K : ℚ) * p2 I) * p2 f := by rw [h1, h2, h8]
          exact mul_right_cancel₀ hpf.ne' h9
        have hy : gfixedQuantizer z K (K + I + G) (K + I) .TRN .WRAP = t + (1 + K) * p2 I := by
          have hb0 : K + I + G ≠ 0 := by omega
          rw [gfixed_pos_bits _ _ _ _ _ hb0]
          have e1 : K + I + G - (K + I) = G := by ring
          have e2 : K + I - (K + I + G) = -G := by ring
          rw [e1, e2]
          change (floorMod _ _ + _) * p2 (-G) = _
          have e3 : K + I + G - K = I + G := by ring
          rw [e3]
          have hM := p2_pos (I + G)
          have e4 : p2 (I + G) = p2 I * p2 G := p2_add I G
          have hpG := p2_pos G
          have hx1 : t * p2 G = flr (z * p2 G) := by rw [ht, mul_assoc, p2_neg_mul, mul_one]
          have hx2 : (flr (z * p2 G) : ℚ) < -((K : ℚ) * p2 (I + G)) := by
            have := mul_lt_mul_of_pos_right hlo hpG
            rw [hx1] at this; rw [e4]; nlinarith
          have hx3 : -((K : ℚ) * p2 (I + G)) - (1 + K) * p2 (I + G) ≤ flr (z * p2 G) := by
            have h1 : v - p2 (-f) ≤ t := by
              have := mul_le_mul_of_nonneg_right htl hpnf.le
              rw [mul_assoc t, p2_mul_neg, mul_one] at this
              rw [hn]; nlinarith
            have h2 : p2 (-f) ≤ p2 I := p2_le_p2 (by omega)
            have h3 : -((K : ℚ) * p2 I) - (1 + K) * p2 I ≤ t := by
              have := mul_nonneg hK0 (p2_pos I).le
              linarith
            have := mul_le_mul_of_nonneg_right h3 hpG.le
            rw [hx1] at this; rw [e4]; nlinarith
          change (floorMod ((flr (z * p2 G) : ℚ) - _) _ + _) * p2 (-G) = _
          unfold floorMod
          have hW : p2 (I + G) - 1 - -(p2 (I + G) - 1 + 1) * (K : ℚ) + 1 = (1 + K) * p2 (I + G) := by ring
          rw [hW]
          have hWpos : 0 < (1 + (K : ℚ)) * p2 (I + G) := mul_pos (by linarith) hM
          have hfl : ⌊((flr (z * p2 G) : ℚ) - -(p2 (I + G) - 1 + 1) * (K : ℚ)) / ((1 + (K : ℚ)) * p2 (I + G))⌋ = -1 := by
            rw [Int.floor_eq_iff]
            constructor
            · rw [le_div_iff₀ hWpos]; push_cast; linarith
            · rw [div_lt_iff₀ hWpos]; push_cast; linarith
          rw [hfl, ht, show p2 I = p2 (I + G) * p2 (-G) by rw [← p2_add]; congr 1; ring]
          push_cast; ring
        have hy0 : 0 ≤ t + (1 + K) * p2 I := by
          have h1 : v - p2 (-f) ≤ t := by
            have := mul_le_mul_of_nonneg_right htl hpnf.le
            rw [mul_assoc t, p2_mul_neg, mul_one] at this
            rw [hn]; nlinarith
          have h2 : p2 (-f) ≤ p2 I := p2_le_p2 (by omega)
          rw [hvK] at h1; linarith
        rw [init_apply, eb, hy]
        have hry : relu (t + (1 + K) * p2 I) = t + (1 + K) * p2 I := max_eq_left hy0
        have hrv : relu v = 0 := relu_nonpos (by
          rw [hvK]; have := mul_nonneg hK0 (p2_pos I).le; linarith)
        rw [hry, hrv, proxyQ_apply]
        have hwfp := bitsExact_wf mn mx fbw true c.hf
        by_cases hz0 : (bitsExact mn mx fbw true).k + (bitsExact mn mx fbw true).i + (bitsExact mn mx fbw true).f = 0
        · rw [hz0, gfixed_zero_bits]
        have hbk : (bitsExact mn mx fbw true).k = 0 := by
          unfold bitsExact maskKif; simp
        have hbf : (bitsExact mn mx fbw true).f = f := by
          rcases hwfp.2.2 with h | h
          · exact h
          · rw [h] at hz0; simp at hz0
        have hbi : (bitsExact mn mx fbw true).i ≤ I := by
          have h1 : (bitsExact mn mx fbw true).i = clipBits ((floorLog2 (max mx 0)).map (· + 1)) (-f) := by
            have hne : (0 : ℤ) + clipBits ((floorLog2 (max mx 0)).map (· + 1)) (-f - 0) + f ≠ 0 := by
              intro h
              apply hz0
              unfold bitsExact maskKif
              simp only [if_true]
              rw [← hfdef, h]; simp
            unfold bitsExact maskKif
            simp only [if_true, ← hfdef, if_pos hne]
            simp
          rw [h1]
          apply clipBits_le_of _ (by omega)
          have hmxI : mx < p2 I := by
            have hcm := bitsExact_neg_covers c.gmx (le_trans c.h1 c.h2) le_rfl c.hmn c.hmx
            exact lt_of_lt_of_le hcm.2.2 (p2_le_p2 c.hi)
          rw [max_eq_left hpos.le]
          unfold floorLog2
          rw [if_neg hpos.ne']
          have := (lt_p2_log I hpos).mp hmxI
          exact WithBot.coe_le_coe.mpr (by change Int.log 2 mx + 1 ≤ I; omega)
        rw [hbk, hbf] at hz0 ⊢
        rw [gfixed_pos_bits _ _ _ _ _ hz0]
        have e1 : 0 + (bitsExact mn mx fbw true).i + f - (0 + (bitsExact mn mx fbw true).i) = f := by ring
        rw [e1]
        set bi := (bitsExact mn mx fbw true).i with hbidef
        have hbi0 : 0 ≤ bi + f := by have := hwfp.2.1; omega
        have hr : rndMap .RND ((t + (1 + (K : ℚ)) * p2 I) * p2 f) = p2 (I + f) := by
          obtain ⟨m, hm, _⟩ := p2_int_of_nonneg (a := I + f) (by omega)
          change ((flr ((t + (1 + (K : ℚ)) * p2 I) * p2 f + 1 / 2) : ℤ) : ℚ) = _
          rw [hm]; congr 1
          have hvf : v * p2 f = n := by rw [hn, mul_assoc, p2_neg_mul, mul_one]
          have hnK : (n : ℚ) = -((K : ℚ) * m) := by
            rw [← hvf, hvK, ← hm, p2_add]; ring
          have htf : t * p2 f < -((K : ℚ) * m) := by
            have := mul_lt_mul_of_pos_right hlo hpf
            rw [← hm, p2_add]; nlinarith
          have hexp : (t + (1 + (K : ℚ)) * p2 I) * p2 f = t * p2 f + (1 + K) * m := by
            rw [← hm, p2_add]; ring
          rw [hexp]
          apply Int.floor_eq_iff.mpr
          constructor
          · rw [hnK] at htl; linarith
          · linarith
        rw [hr]
        have hw0 : satMap .WRAP (p2 (I + f)) 0 (0 + bi + f) = 0 := by
          change floorMod _ _ + _ = 0
          unfold floorMod
          have e5 : 0 + bi + f - 0 = bi + f := by ring
          have hq := p2_pos (bi + f)
          simp only [e5, Int.cast_zero, mul_zero, sub_zero, add_zero, sub_add_cancel]
          have h1 : p2 (I + f) = p2 (I - bi) * p2 (bi + f) := by rw [← p2_add]; congr 1; ring
          obtain ⟨m, hm, _⟩ := p2_int_of_nonneg (a := I - bi) (by omega)
          rw [h1, mul_div_assoc, div_self hq.ne', mul_one, hm, Int.floor_intCast]; ring
        rw [hw0]; ring
  · push Not at hpos
    rw [proxyQ_zero (bitsExact_pos_zero c.hf hpos), relu_nonpos (le_trans c.h2 hpos)]

end HGQ
