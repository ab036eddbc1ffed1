import Verif.Props.Net

/-!
C104: what the deployed layers do outside the calibrated range.
-/

namespace HGQ

open Spec

/-! ### saturation and wrapping in terms of values -/

theorem gfixed_sat {k i f : ℤ} (hw : k + i + f ≠ 0) (R : Rnd) (x : ℚ) :
    gfixedQuantizer x k (k + i + f) (k + i) R .SAT =
      max (min (rndMap R (x * p2 f) * p2 (-f)) (p2 i - p2 (-f))) (-(k * p2 i)) := by
  rw [gfixed_pos_bits _ _ _ _ _ hw]
  have e1 : k + i + f - (k + i) = f := by ring
  have e2 : k + i - (k + i + f) = -f := by ring
  have e3 : k + i + f - k = i + f := by ring
  have e4 : p2 (i + f) * p2 (-f) = p2 i := by rw [← p2_add]; congr 1; ring
  rw [e1, e2]
  change satSAT _ _ _ * _ = _
  unfold satSAT clipByValue
  simp only [e3]
  rw [max_mul_of_nonneg _ _ (p2_pos (-f)).le, min_mul_of_nonneg _ _ (p2_pos (-f)).le]
  congr 1
  · rw [sub_mul, e4, one_mul]
  · rw [sub_add_cancel, neg_mul, neg_mul, mul_right_comm, e4, mul_comm]

/-- the type is the range of a saturating quantizer -/
theorem proxyQ_sat {r : KIF} (h0 : r.k + r.i + r.f = 0 → r = ⟨0, 0, 0⟩) (R : Rnd) (x v : ℚ)
    (hv : r ≠ ⟨0, 0, 0⟩ → rndMap R (x * p2 r.f) * p2 (-r.f) = v) :
    (proxyQ r).apply R .SAT x = max (min v ((2 : ℚ) ^ r.i - (2 : ℚ) ^ (-r.f))) (-(r.k * (2 : ℚ) ^ r.i)) := by
  unfold proxyQ
  by_cases hz : r.k + r.i + r.f = 0
  · rw [init_apply, hz, gfixed_zero_bits, h0 hz]
    simp
  · rw [init_apply, gfixed_sat hz, hv (by rintro rfl; simp at hz)]
    rfl

theorem floor_trunc {z c : ℚ} {f G : ℤ} (hc : ∃ m : ℤ, c * p2 (G - f) = m) (hG : f ≤ G) :
    flr ((flr (z * p2 G) : ℚ) * p2 (-G) * p2 f + c) = flr (z * p2 f + c) := by
  obtain ⟨m, hm⟩ := hc
  obtain ⟨d, hd, hd0⟩ := p2_int_of_nonneg (a := G - f) (by omega)
  have hp := p2_pos (G - f)
  have e1 : p2 (-G) * p2 f * p2 (G - f) = 1 := by rw [← p2_add, ← p2_add, ← p2_zero]; congr 1; ring
  have e2 : p2 f * p2 (G - f) = p2 G := by rw [← p2_add]; congr 1; ring
  apply eq_of_forall_le_iff
  intro n
  have key : ∀ y : ℚ, (n : ℚ) ≤ y + c ↔ (n : ℚ) * d - m ≤ y * p2 (G - f) := by
    intro y
    rw [← mul_le_mul_iff_left₀ hp, add_mul, hm, hd, sub_le_iff_le_add]
  have e3 : (flr (z * p2 G) : ℚ) * p2 (-G) * p2 f * p2 (G - f) = flr (z * p2 G) := by
    rw [mul_assoc, mul_assoc, ← mul_assoc (p2 (-G)), e1, mul_one]
  rw [le_flr, le_flr, key, key, e3, mul_assoc, e2]
  have h1 : ((n : ℚ) * d - m ≤ (flr (z * p2 G) : ℚ)) ↔ n * d - m ≤ flr (z * p2 G) := by norm_cast
  rw [h1, le_flr]
  push_cast
  rfl

/-- the recorded type has no bits exactly if it is the zero type -/
theorem bitsExact_mask {mn mx fbw : ℚ} {b : Bool} (h : (bitsExact mn mx fbw b).k + (bitsExact mn mx fbw b).i + (bitsExact mn mx fbw b).f = 0) :
    bitsExact mn mx fbw b = ⟨0, 0, 0⟩ := by
  have : ∀ k i f : ℤ, (maskKif k i f).k + (maskKif k i f).i + (maskKif k i f).f = 0 → maskKif k i f = ⟨0, 0, 0⟩ := by
    intro k i f h
    unfold maskKif at h ⊢
    split_ifs at h ⊢ with h0
    · simp only [mul_one] at h; omega
    · simp
  unfold bitsExact at h ⊢
  cases b <;> exact this _ _ _ h

/-! ### C104 -/

/-- C104: quantizer, activation and addition layers. For every input, calibrated or not, the saturating proxy returns the layer's own output
moved to the nearest end of the deployed type (`k` sign bit, `i` integer, `f` fractional bits) if it is outside. -/
theorem C104_saturates (nd : Node) (q : QSite) (hq : nd.site = some q) (hl : ∀ L, nd ≠ .linear L) (s : QState) (hf : ∀ e, -32 ≤ s.fbw e)
    (ins : List (List ℚ)) (p : ℕ) :
    nd.proxyAt s (proxySat false) ins p =
      max (min (evalQ q.conf.strategy (s.fbw (q.elem p)) (nd.preAt s.fbw ins p))
        ((2 : ℚ) ^ (q.bitsAt s p).i - (2 : ℚ) ^ (-(q.bitsAt s p).f))) (-((q.bitsAt s p).k * (2 : ℚ) ^ (q.bitsAt s p).i)) := by
  have main : ∀ x, (proxyQ (q.bitsAt s p)).apply (proxyRnd q.conf.strategy false) (proxySat false) x =
      max (min (evalQ q.conf.strategy (s.fbw (q.elem p)) x)
        ((2 : ℚ) ^ (q.bitsAt s p).i - (2 : ℚ) ^ (-(q.bitsAt s p).f))) (-((q.bitsAt s p).k * (2 : ℚ) ^ (q.bitsAt s p).i)) := by
    intro x
    refine proxyQ_sat (fun h => bitsExact_mask h) _ x _ ?_
    intro hne
    have : (q.bitsAt s p).f = tfRound (s.fbw (q.elem p)) :=
      (bitsExact_wf _ _ _ false (tfRound_ge (by exact_mod_cast hf (q.elem p)))).2.2.resolve_right hne
    change rndMap _ (x * p2 (q.bitsAt s p).f) * p2 (-(q.bitsAt s p).f) = _
    rw [this, evalQ_eq, proxyRnd_uncovered]
    unfold evalRnd
    split_ifs <;> rfl
  cases nd with
  | quantize q' => cases hq; exact main _
  | activation _ _ q' => cases hq; exact main _
  | add q' => cases hq; exact main _
  | linear L => exact absurd rfl (hl L)
  | passive g => cases hq

/-- C104: dense and convolution layers without relu, also in pruned channels. -/
theorem C104_linear_saturates (L : LinLayer) (s : QState) (h : L.WF s) (hrelu : L.reluAct = false) (x : List ℚ) (p : ℕ)
    (hp : p < prodL L.outShape) (lo hi : ℚ) (ht : Traced s (L.elem p) lo hi) :
    L.proxyOut s (proxySat false) x p =
      max (min (L.quant s x p) ((2 : ℚ) ^ (L.bitsAt s false p).i - (2 : ℚ) ^ (-(L.bitsAt s false p).f)))
        (-((L.bitsAt s false p).k * (2 : ℚ) ^ (L.bitsAt s false p).i)) := by
  have hb : L.bitsAt s false p = bitsExact lo hi (s.fbw (L.elem p)) false := by
    unfold LinLayer.bitsAt; rw [ht.mn, ht.mx, WithTop.untopD_coe, WithBot.unbotD_coe]
  have hwf := (bitsExact_wf lo hi _ false (tfRound_ge (by exact_mod_cast ht.fb))).2.2
  rw [← hb] at hwf
  have h0 : (L.bitsAt s false p).k + (L.bitsAt s false p).i + (L.bitsAt s false p).f = 0 → L.bitsAt s false p = ⟨0, 0, 0⟩ := by
    rw [hb]; exact bitsExact_mask
  by_cases hm : L.bias = none ∨ L.biasMask s (L.chan p) = true
  · have hr := pre_round h hp x hm
    unfold LinLayer.proxyOut
    simp only [hrelu, Bool.false_eq_true, if_false]
    refine proxyQ_sat h0 _ _ _ ?_
    intro hne
    rw [hwf.resolve_right hne, hr]
  · push Not at hm
    have hm' : L.biasMask s (L.chan p) = false := by simpa using hm.2
    rw [C23_pruned_proxy_zero L s _ x p hp lo hi ht hm']
    have ha : ¬ 0 < actBw lo hi (s.fbw (L.elem p)) false := by
      unfold LinLayer.biasMask at hm'
      rw [List.any_eq_false] at hm'
      have := hm' p (List.mem_range.mpr hp)
      rw [Bool.and_eq_true, not_and] at this
      have := this (by simp)
      rw [ht.mn, ht.mx, WithTop.untopD_coe, WithBot.unbotD_coe, hrelu] at this
      simpa using this
    have hz := exact_zero_of_actBw ht.fb ht.glo ht.ghi ht.le ha
    rw [← hb] at hz
    rw [h0 hz]
    simp

/-- a saturating relu proxy: layer, first quantizer, ReLU, second quantizer -/
theorem relu_sat {r : KIF} {R : Rnd} {c z v : ℚ} {K I G : ℤ} (hK : K = 0 ∨ K = 1) (hrk : r.k = 0) (hw : 0 < r.k + r.i + r.f)
    (hI : r.i ≤ I) (hIf : -r.f ≤ I) (hFG : r.f ≤ G) (hwG : K + I + G ≠ 0) (hR : ∀ y, rndMap R y = flr (y + c)) (hc : c = 0 ∨ c = 1 / 2 ∧ r.f + 1 ≤ G)
    (hv : v = rndMap R (z * p2 r.f) * p2 (-r.f)) :
    (proxyQ r).apply R .SAT (relu ((KBI.init K (K + I + G) (K + I)).apply .TRN .SAT z)) =
      max (min (relu v) (p2 r.i - p2 (-r.f))) (-(r.k * p2 r.i)) := by
  have hpf := p2_pos r.f
  have hpnf := p2_pos (-r.f)
  have hpG := p2_pos (-G)
  have hpGf : p2 (-G) ≤ p2 (-r.f) := p2_le_p2 (by omega)
  have hII : p2 r.i ≤ p2 I := p2_le_p2 hI
  have hIf' : p2 (-r.f) ≤ p2 I := p2_le_p2 hIf
  have hif : p2 (-r.f) ≤ p2 r.i := p2_le_p2 (by omega)
  have hc0 : 0 ≤ c := by rcases hc with h | h <;> [rw [h]; (rw [h.1]; norm_num)]
  have hc1 : c < 1 := by rcases hc with h | h <;> [(rw [h]; norm_num); (rw [h.1]; norm_num)]
  have hcm : ∃ m : ℤ, c * p2 (G - r.f) = m := by
    rcases hc with h | ⟨h, h'⟩
    · exact ⟨0, by rw [h]; simp⟩
    · obtain ⟨m, hm, -⟩ := p2_int_of_nonneg (a := G - r.f - 1) (by omega)
      refine ⟨m, ?_⟩
      rw [h, ← hm, show G - r.f = (G - r.f - 1) + 1 by ring, p2_succ]
      ring_nf
  have hrnd : ∀ y, rndMap R (y * p2 r.f) * p2 (-r.f) = (flr (y * p2 r.f + c) : ℚ) * p2 (-r.f) := fun y => by rw [hR]
  unfold proxyQ
  rw [init_apply, init_apply, gfixed_sat hw.ne', gfixed_sat hwG]
  change max (min (rndMap R (relu (max (min ((flr (z * p2 G) : ℚ) * p2 (-G)) (p2 I - p2 (-G))) (-(K * p2 I))) * p2 r.f) * p2 (-r.f))
    (p2 r.i - p2 (-r.f))) (-(r.k * p2 r.i)) = _
  set T : ℚ := (flr (z * p2 G) : ℚ) * p2 (-G) with hT
  have hKI : -((K : ℚ) * p2 I) ≤ 0 := by
    have := p2_pos I
    rcases hK with h | h <;> rw [h] <;> simp <;> linarith
  have hvT : v = (flr (T * p2 r.f + c) : ℚ) * p2 (-r.f) := by rw [hv, hrnd, hT, floor_trunc hcm hFG]
  rcases le_or_gt T 0 with hT0 | hT0
  · have e1 : relu (max (min T (p2 I - p2 (-G))) (-(K * p2 I))) = 0 := by
      unfold relu
      exact max_eq_right (max_le ((min_le_left _ _).trans hT0) hKI)
    have hv0 : v ≤ 0 := by
      rw [hvT]
      refine mul_nonpos_of_nonpos_of_nonneg ?_ hpnf.le
      have : flr (T * p2 r.f + c) < 1 := by
        rw [flr_lt]
        have := mul_nonpos_of_nonpos_of_nonneg hT0 hpf.le
        push_cast; linarith
      exact_mod_cast (by omega : flr (T * p2 r.f + c) ≤ 0)
    have e2 : rndMap R (0 * p2 r.f) * p2 (-r.f) = 0 := by
      rw [hR, zero_mul, zero_add]
      have : flr c = 0 := flr_eq_iff.mpr ⟨by push_cast; exact hc0, by push_cast; linarith⟩
      rw [this]; simp
    rw [e1, e2, show relu v = 0 from max_eq_right hv0]
  · rcases le_or_gt T (p2 I - p2 (-G)) with hT1 | hT1
    · have e1 : relu (max (min T (p2 I - p2 (-G))) (-(K * p2 I))) = T := by
        rw [min_eq_left hT1, max_eq_left (hKI.trans hT0.le)]
        exact max_eq_left hT0.le
      have hv0 : 0 ≤ v := by
        rw [hvT]
        refine mul_nonneg ?_ hpnf.le
        have : 0 ≤ flr (T * p2 r.f + c) := le_flr.mpr (by push_cast; have := mul_pos hT0 hpf; linarith)
        exact_mod_cast this
      rw [e1, hrnd, ← hvT, show relu v = v from max_eq_left hv0]
    · have hI0 : 0 ≤ p2 I - p2 (-G) := by linarith
      have e1 : relu (max (min T (p2 I - p2 (-G))) (-(K * p2 I))) = p2 I - p2 (-G) := by
        rw [min_eq_right hT1.le, max_eq_left (hKI.trans hI0)]
        exact max_eq_left hI0
      -- both round to at least the upper end
      have hge : ∀ y : ℚ, p2 I - p2 (-G) ≤ y → p2 r.i - p2 (-r.f) ≤ (flr (y * p2 r.f + c) : ℚ) * p2 (-r.f) := by
        intro y hy
        obtain ⟨m, hm, -⟩ := p2_int_of_nonneg (a := I + r.f) (by omega)
        have hmI : (m : ℚ) * p2 (-r.f) = p2 I := by rw [← hm, ← p2_add]; congr 1; ring
        have h1 : m - 1 ≤ flr (y * p2 r.f + c) := by
          rw [le_flr]
          have h2 := mul_le_mul_of_nonneg_right hy hpf.le
          have h3 : p2 I * p2 r.f = m := by rw [← hm, p2_add]
          have h4 : p2 (-G) * p2 r.f ≤ 1 := by
            rw [← p2_zero, ← p2_add]; exact p2_le_p2 (by omega)
          rw [sub_mul, h3] at h2
          push_cast; linarith
        have h5 : ((m - 1 : ℤ) : ℚ) * p2 (-r.f) ≤ (flr (y * p2 r.f + c) : ℚ) * p2 (-r.f) :=
          mul_le_mul_of_nonneg_right (by exact_mod_cast h1) hpnf.le
        push_cast at h5
        rw [sub_mul, hmI, one_mul] at h5
        linarith
      have hvge := hge T hT1.le
      rw [← hvT] at hvge
      have hv0 : 0 ≤ v := by linarith
      rw [e1, hrnd, min_eq_right (hge _ le_rfl), show relu v = v from max_eq_left hv0, min_eq_right hvge]

/-- C104: dense and convolution layers with relu. The two quantizers of the proxy together saturate exactly at the largest value of the
deployed type, whatever the other elements of the quantizer have recorded. -/
theorem C104_relu_saturates (L : LinLayer) (s : QState) (h : L.WF s) (hrelu : L.reluAct = true) (x : List ℚ) (p : ℕ)
    (hp : p < prodL L.outShape) (lo hi : ℚ) (ht : Traced s (L.elem p) lo hi) (hall : ∀ e < prodL L.qShape, -32 ≤ s.fbw e) :
    L.proxyOut s (proxySat false) x p =
      max (min (max (L.quant s x p) 0) ((2 : ℚ) ^ (L.bitsAt s true p).i - (2 : ℚ) ^ (-(L.bitsAt s true p).f)))
        (-((L.bitsAt s true p).k * (2 : ℚ) ^ (L.bitsAt s true p).i)) := by
  have hb : L.bitsAt s true p = bitsExact lo hi (s.fbw (L.elem p)) true := by
    unfold LinLayer.bitsAt; rw [ht.mn, ht.mx, WithTop.untopD_coe, WithBot.unbotD_coe]
  have hf32 : -32 ≤ tfRound (s.fbw (L.elem p)) := tfRound_ge (by exact_mod_cast ht.fb)
  obtain ⟨w1, w2, w3⟩ := bitsExact_wf lo hi _ true hf32
  rw [← hb] at w1 w2 w3
  have h0 : (L.bitsAt s true p).k + (L.bitsAt s true p).i + (L.bitsAt s true p).f = 0 → L.bitsAt s true p = ⟨0, 0, 0⟩ := by
    rw [hb]; exact bitsExact_mask
  by_cases hz : (L.bitsAt s true p).k + (L.bitsAt s true p).i + (L.bitsAt s true p).f = 0
  · have : L.proxyOut s (proxySat false) x p = 0 := by
      unfold LinLayer.proxyOut
      simp only [hrelu, if_true]
      unfold proxyQ
      rw [init_apply, hz, gfixed_zero_bits]
    rw [this, h0 hz]
    simp
  · have hr3 : (L.bitsAt s true p).f = tfRound (s.fbw (L.elem p)) := w3.resolve_right (by intro hc; rw [hc] at hz; simp at hz)
    have hpos : 0 < hi := by
      by_contra hc
      push Not at hc
      obtain ⟨b, hb'⟩ := ht.ghi
      have := (C18_minimal_pos_only lo hi _ _ b rfl hb' 0 (-tfRound (s.fbw (L.elem p))) (.inl rfl) (by omega)
        (by rw [max_eq_right hc]; exact ⟨⟨0, by simp⟩, by simp, zpow2_pos _⟩)).2
      rw [← hb] at this
      omega
    have hmask : L.biasMask s (L.chan p) = true := by
      by_contra hc
      have hc' : L.biasMask s (L.chan p) = false := by simpa using hc
      unfold LinLayer.biasMask at hc'
      rw [List.any_eq_false] at hc'
      have := hc' p (List.mem_range.mpr hp)
      rw [Bool.and_eq_true, not_and] at this
      have := this (by simp)
      rw [ht.mn, ht.mx, WithTop.untopD_coe, WithBot.unbotD_coe, hrelu] at this
      have hz' := exact_zero_of_actBw ht.fb ht.glo ht.ghi ht.le (by simpa using this)
      rw [← hb] at hz'
      exact hz hz'
    have hr := pre_round h hp x (.inr hmask)
    -- the type in front of the ReLU
    have he : L.elem p < prodL L.qShape := elemOf_lt h.shape hp
    set ks := (List.range (prodL L.qShape)).map fun e =>
      bitsExact ((s.mn e).untopD 0) ((s.mx e).unbotD 0) (s.fbw e) false with hks
    have hmem : bitsExact lo hi (s.fbw (L.elem p)) false ∈ ks := by
      rw [hks]
      refine List.mem_map.mpr ⟨L.elem p, List.mem_range.mpr he, ?_⟩
      rw [ht.mn, ht.mx, WithTop.untopD_coe, WithBot.unbotD_coe]
    have hK : (L.reluKif s).k = 0 ∨ (L.reluKif s).k = 1 := by
      have hne : ks.map (·.k) ≠ [] := by
        intro hc
        have := List.map_eq_nil_iff.mp hc
        rw [this] at hmem; simp at hmem
      obtain ⟨b, hb, hbk⟩ := List.mem_map.mp (listMax_mem hne)
      obtain ⟨e, he', rfl⟩ := List.mem_map.mp hb
      change listMax (ks.map (·.k)) = 0 ∨ listMax (ks.map (·.k)) = 1
      rw [← hbk]
      exact (bitsExact_wf _ _ _ _ (tfRound_ge (by exact_mod_cast hall e (List.mem_range.mp he')))).1
    have hi1 : (bitsExact lo hi (s.fbw (L.elem p)) false).i ≤ (L.reluKif s).i := le_listMax (List.mem_map.mpr ⟨_, hmem, rfl⟩)
    have hf1 : (bitsExact lo hi (s.fbw (L.elem p)) false).f ≤ (L.reluKif s).f := le_listMax (List.mem_map.mpr ⟨_, hmem, rfl⟩)
    have hcov := bitsExact_neg_covers ht.ghi ht.le le_rfl ht.lb ht.ub
    obtain ⟨v1, v2, v3⟩ := bitsExact_wf lo hi _ false hf32
    have hv3 : (bitsExact lo hi (s.fbw (L.elem p)) false).f = tfRound (s.fbw (L.elem p)) := by
      rcases v3 with v3 | v3
      · exact v3
      · rw [v3] at hcov
        exact absurd (isKif_width_zero (.inl rfl) (by simp) hcov) hpos.ne'
    rw [hv3] at hf1
    have hi2 : -tfRound (s.fbw (L.elem p)) < (bitsExact lo hi (s.fbw (L.elem p)) false).i := by
      obtain ⟨n, hn⟩ := ht.ghi
      have hn1 : 1 ≤ n := by
        have : (0 : ℚ) < n := by
          rw [hn] at hpos
          exact pos_of_mul_pos_left hpos (zpow2_pos _).le
        have : 0 < n := by exact_mod_cast this
        omega
      refine lt_of_p2_lt (lt_of_le_of_lt ?_ hcov.2.2)
      rw [hn]
      exact le_mul_of_one_le_left (zpow2_pos _).le (by exact_mod_cast hn1)
    have hi3 : (L.bitsAt s true p).i ≤ (bitsExact lo hi (s.fbw (L.elem p)) false).i := by
      obtain ⟨b, hb'⟩ := ht.ghi
      have := (C18_minimal_pos_only lo hi _ _ b rfl hb' 0 (bitsExact lo hi (s.fbw (L.elem p)) false).i (.inl rfl) (by omega)
        (by rw [max_eq_left hpos.le]; exact ⟨⟨b, hb'⟩, by simpa using hpos.le, hcov.2.2⟩)).2
      rw [← hb] at this
      omega
    have hk0 : (L.bitsAt s true p).k = 0 := by rw [hb]; unfold bitsExact maskKif; simp
    unfold LinLayer.proxyOut
    simp only [hrelu, if_true]
    have hR : proxyRnd L.paq.strategy L.canBiasCover = .TRN ∨ proxyRnd L.paq.strategy L.canBiasCover = .RND := by
      unfold proxyRnd; split_ifs <;> simp
    rw [← hr3] at hr
    rcases hR with hR | hR
    · rw [hR] at hr ⊢
      simp only [if_true, add_zero]
      exact relu_sat (c := 0) hK hk0 (by omega) (by omega) (by omega) (by omega) (by omega) (fun y => by simp [rndMap, rndTRN])
        (.inl rfl) hr.symm
    · rw [hR] at hr ⊢
      have e1 : (if Rnd.RND = Rnd.TRN then (0 : ℤ) else if Rnd.RND = Rnd.RND then 1 else 2) = 1 := by simp
      rw [e1, add_assoc (_ + _) _ (1 : ℤ)]
      exact relu_sat (c := 1 / 2) hK hk0 (by omega) (by omega) (by omega) (by omega) (by omega) (fun y => by simp [rndMap, rndRND])
        (.inr ⟨rfl, by omega⟩) hr.symm

/-! ### the aggressive mode -/

theorem proxyQ_wrap {r : KIF} (hk : r.k = 0 ∨ r.k = 1) (hw : 0 < r.k + r.i + r.f) (R : Rnd) (x : ℚ) :
    IsKif r.k r.i r.f ((proxyQ r).apply R .WRAP x) ∧
      ∃ n : ℤ, (proxyQ r).apply R .WRAP x = rndMap R (x * p2 r.f) * p2 (-r.f) - n * (2 : ℚ) ^ (r.k + r.i) := by
  obtain ⟨k, i, f⟩ := r
  simp only at hk hw
  unfold proxyQ
  rw [init_apply]
  constructor
  · obtain ⟨w, hw'⟩ := Int.eq_ofNat_of_zero_le hw.le
    have key : ∀ s : Bool, s.toInt = k → IsKif k i f (gfixedQuantizer x k (k + i + f) (k + i) R .WRAP) := by
      rintro s rfl
      have h := C01_output_in_type x s w (s.toInt + i) R .WRAP
      rw [spec_kif_iff_apfixed] at h
      have e1 : s.toInt + i - s.toInt = i := by ring
      have e2 : (w : ℤ) - (s.toInt + i) = f := by omega
      rw [e1, e2] at h
      rw [hw']
      exact h
    rcases hk with h | h
    · exact key false (by rw [h]; rfl)
    · exact key true (by rw [h]; rfl)
  · simp only
    rw [gfixed_pos_bits _ _ _ _ _ hw.ne']
    have e1 : k + i + f - (k + i) = f := by ring
    have e2 : k + i - (k + i + f) = -f := by ring
    have e3 : k + i + f - k = i + f := by ring
    have e4 : p2 (i + f) * p2 (-f) = p2 i := by rw [← p2_add]; congr 1; ring
    rw [e1, e2]
    change ∃ n : ℤ, satWRAP _ _ _ * _ = _
    unfold satWRAP floorMod
    simp only [e3]
    generalize ⌊(rndMap R (x * p2 f) - -(p2 (i + f) - 1 + 1) * (k : ℚ)) / (p2 (i + f) - 1 - -(p2 (i + f) - 1 + 1) * k + 1)⌋ = n
    refine ⟨n, ?_⟩
    have e5 : (2 : ℚ) ^ (k + i) = (1 + k) * p2 i := by
      change p2 (k + i) = _
      rcases hk with h | h <;> rw [h]
      · simp
      · rw [add_comm, p2_succ]; norm_num
    rw [e5, ← e4]
    ring

/-- C104, `aggressive=True`: outside the calibrated range the proxy of a quantizer, activation or addition layer differs from the layer by a
multiple of the size `2^(k+i)` of the deployed type, and is a value of that type. -/
theorem C104_wraps (nd : Node) (q : QSite) (hq : nd.site = some q) (hl : ∀ L, nd ≠ .linear L) (s : QState) (hf : ∀ e, -32 ≤ s.fbw e)
    (ins : List (List ℚ)) (p : ℕ) (hne : q.bitsAt s p ≠ ⟨0, 0, 0⟩) :
    IsKif (q.bitsAt s p).k (q.bitsAt s p).i (q.bitsAt s p).f (nd.proxyAt s (proxySat true) ins p) ∧
    ∃ n : ℤ, nd.proxyAt s (proxySat true) ins p =
      evalQ q.conf.strategy (s.fbw (q.elem p)) (nd.preAt s.fbw ins p) - n * (2 : ℚ) ^ ((q.bitsAt s p).k + (q.bitsAt s p).i) := by
  obtain ⟨w1, w2, w3⟩ := bitsExact_wf ((s.mn (q.elem p)).untopD 0) ((s.mx (q.elem p)).unbotD 0) _ false
    (tfRound_ge (by exact_mod_cast hf (q.elem p)))
  have hw : 0 < (q.bitsAt s p).k + (q.bitsAt s p).i + (q.bitsAt s p).f := by
    refine lt_of_le_of_ne w2 fun h => hne (bitsExact_mask ?_)
    exact h.symm
  have main : ∀ x, IsKif (q.bitsAt s p).k (q.bitsAt s p).i (q.bitsAt s p).f
      ((proxyQ (q.bitsAt s p)).apply (proxyRnd q.conf.strategy false) (proxySat true) x) ∧
      ∃ n : ℤ, (proxyQ (q.bitsAt s p)).apply (proxyRnd q.conf.strategy false) (proxySat true) x =
        evalQ q.conf.strategy (s.fbw (q.elem p)) x - n * (2 : ℚ) ^ ((q.bitsAt s p).k + (q.bitsAt s p).i) := by
    intro x
    have h := proxyQ_wrap w1 hw (proxyRnd q.conf.strategy false) x
    have hfe : (q.bitsAt s p).f = tfRound (s.fbw (q.elem p)) := w3.resolve_right hne
    have he : rndMap (proxyRnd q.conf.strategy false) (x * p2 (q.bitsAt s p).f) * p2 (-(q.bitsAt s p).f) =
        evalQ q.conf.strategy (s.fbw (q.elem p)) x := by
      rw [hfe, evalQ_eq, proxyRnd_uncovered]
      unfold evalRnd
      split_ifs <;> rfl
    refine ⟨h.1, ?_⟩
    obtain ⟨n, hn⟩ := h.2
    exact ⟨n, by rw [← he]; exact hn⟩
  cases nd with
  | quantize q' => cases hq; exact main _
  | activation _ _ q' => cases hq; exact main _
  | add q' => cases hq; exact main _
  | linear L => exact absurd rfl (hl L)
  | passive g => cases hq

/-- C104, `aggressive=True`, dense and convolution layers without relu. -/
theorem C104_linear_wraps (L : LinLayer) (s : QState) (h : L.WF s) (hrelu : L.reluAct = false) (x : List ℚ) (p : ℕ)
    (hp : p < prodL L.outShape) (lo hi : ℚ) (ht : Traced s (L.elem p) lo hi) (hne : L.bitsAt s false p ≠ ⟨0, 0, 0⟩) :
    IsKif (L.bitsAt s false p).k (L.bitsAt s false p).i (L.bitsAt s false p).f (L.proxyOut s (proxySat true) x p) ∧
    ∃ n : ℤ, L.proxyOut s (proxySat true) x p =
      L.quant s x p - n * (2 : ℚ) ^ ((L.bitsAt s false p).k + (L.bitsAt s false p).i) := by
  have hb : L.bitsAt s false p = bitsExact lo hi (s.fbw (L.elem p)) false := by
    unfold LinLayer.bitsAt; rw [ht.mn, ht.mx, WithTop.untopD_coe, WithBot.unbotD_coe]
  obtain ⟨w1, w2, w3⟩ := bitsExact_wf lo hi _ false (tfRound_ge (by exact_mod_cast ht.fb))
  rw [← hb] at w1 w2 w3
  have hw : 0 < (L.bitsAt s false p).k + (L.bitsAt s false p).i + (L.bitsAt s false p).f := by
    refine lt_of_le_of_ne w2 fun h => hne ?_
    rw [hb] at h ⊢
    exact bitsExact_mask h.symm
  have hmask : L.biasMask s (L.chan p) = true := by
    by_contra hc
    have hc' : L.biasMask s (L.chan p) = false := by simpa using hc
    unfold LinLayer.biasMask at hc'
    rw [List.any_eq_false] at hc'
    have := hc' p (List.mem_range.mpr hp)
    rw [Bool.and_eq_true, not_and] at this
    have := this (by simp)
    rw [ht.mn, ht.mx, WithTop.untopD_coe, WithBot.unbotD_coe, hrelu] at this
    have hz' := exact_zero_of_actBw ht.fb ht.glo ht.ghi ht.le (by simpa using this)
    rw [← hb] at hz'
    omega
  have hr := pre_round h hp x (.inr hmask)
  have h' := proxyQ_wrap w1 hw (proxyRnd L.paq.strategy L.canBiasCover) (L.klayer s x p)
  rw [w3.resolve_right hne, hr, ← w3.resolve_right hne] at h'
  unfold LinLayer.proxyOut
  simp only [hrelu, Bool.false_eq_true, if_false]
  exact h'

/-! ### concrete cases -/

-- type of the first output: sign, 2 integer bits, 1 fractional bit; outputs 6 and -13/2 are outside
example : (exDense 0 [2] false).bitsAt exState false 0 = ⟨1, 2, 1⟩ ∧ (exDense 0 [2] true).bitsAt exState true 0 = ⟨0, 2, 1⟩ := by decide +kernel

example : (exDense 0 [2] false).quant exState [6, -1] 0 = 6 ∧ (exDense 0 [2] false).proxyOut exState (proxySat false) [6, -1] 0 = 7 / 2 ∧
    (exDense 0 [2] false).proxyOut exState (proxySat true) [6, -1] 0 = 6 - 1 * 2 ^ 3 := by decide +kernel

example : (exDense 0 [2] false).proxyOut exState (proxySat false) [6, -1] 0 = 7 / 2 := by
  rw [C104_linear_saturates _ _ (exDense_wf 0 false) rfl _ 0 (by decide) _ _ exState_traced0]
  decide +kernel

example : (exDense 0 [2] true).proxyOut exState (proxySat false) [6, -1] 0 = 7 / 2 := by
  have hfb : ∀ e < prodL (exDense 0 [2] true).qShape, -32 ≤ exState.fbw e := by
    intro e _
    show (-32 : ℚ) ≤ if e = 0 then _ else _
    split_ifs <;> norm_num
  rw [C104_relu_saturates _ _ (exDense_wf 0 true) rfl _ 0 (by decide) _ _ exState_traced0 hfb]
  decide +kernel

example : (Node.add exAct).proxyAt exState (proxySat false) [[3, 0], [2, 0]] 0 = 7 / 2 ∧
    (Node.add exAct).proxyAt exState (proxySat true) [[3, 0], [2, 0]] 0 = -3 := by decide +kernel

/-- With `aggressive=True` a relu layer does not wrap modulo its type: the quantizer in front of the ReLU wraps first, so an output of 6 becomes
0 in a type without sign and with two integer bits, although `6 - 4 = 2`. -/
theorem C104_aggressive_relu : (exDense 0 [2] true).post ((exDense 0 [2] true).quant exState [6, -1] 0) = 6 ∧
    (exDense 0 [2] true).proxyOut exState (proxySat true) [6, -1] 0 = 0 ∧
    ¬ ∃ n : ℤ, (0 : ℚ) = 6 - n * 2 ^ 2 := by
  refine ⟨by decide +kernel, by decide +kernel, ?_⟩
  rintro ⟨n, hn⟩
  have : (4 * n : ℚ) = 6 := by linarith
  have : 4 * n = 6 := by exact_mod_cast this
  omega

end HGQ
