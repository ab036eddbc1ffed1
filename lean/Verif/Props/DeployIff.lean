import Verif.Props.Net

/-!
C20 and C24 for all inputs, also outside of the recorded ranges: the deployed layer returns the layer's output exactly where that output is a value of
the type chosen by the conversion. (C17: this type contains the recorded range. C18: it is the smallest one that does.)
-/

namespace HGQ

open Spec

theorem proxyQ_iff {mn mx fbw x : ℚ} (R : Rnd) {S : Sat} (hS : S ≠ .SAT_SYM) (hf : -32 ≤ tfRound fbw) :
    (proxyQ (bitsExact mn mx fbw false)).apply R S x = rndMap R (x * p2 (tfRound fbw)) * p2 (-(tfRound fbw)) ↔
      IsKif (bitsExact mn mx fbw false).k (bitsExact mn mx fbw false).i (bitsExact mn mx fbw false).f
        (rndMap R (x * p2 (tfRound fbw)) * p2 (-(tfRound fbw))) := by
  obtain ⟨w1, w2, w3⟩ := bitsExact_wf mn mx fbw false hf
  rw [proxyQ_apply]
  constructor
  · intro h
    rw [← h]
    generalize bitsExact mn mx fbw false = b at *
    obtain ⟨sgn, hsgn⟩ : ∃ sgn : Bool, b.k = sgn.toInt := by
      rcases w1 with e | e
      · exact ⟨false, e⟩
      · exact ⟨true, e⟩
    obtain ⟨w, hw⟩ := Int.eq_ofNat_of_zero_le w2
    have := (spec_kif_iff_apfixed sgn w (b.k + b.i) _).mp (C01_output_in_type x sgn w (b.k + b.i) R S)
    have e1 : b.k + b.i - sgn.toInt = b.i := by omega
    have e2 : (w : ℤ) - (b.k + b.i) = b.f := by have : b.k + b.i + b.f = (w : ℤ) := hw; omega
    rw [e1, e2, ← hsgn] at this
    rw [hw]
    exact this
  · intro h
    rcases w3 with w3 | w3
    · rw [w3] at h w2 ⊢
      exact gfixed_of_isKif w1 w2 R hS h
    · rw [w3] at h ⊢
      rw [show (0 : ℤ) + 0 + 0 = 0 from rfl, gfixed_zero_bits]
      exact (isKif_width_zero (.inl rfl) rfl h).symm

/-- **C20** for every input: the deployed quantizer returns the value of the HGQ quantizer if and only if that value belongs to the type chosen for the
recorded range; both overflow modes, both rounding strategies. -/
theorem C20_iff (c : QConf) (aggressive : Bool) (mn mx fbw x noise v : ℚ) (hv : c.forward fbw x noise false = .ok v) (hf : -32 ≤ fbw) :
    (proxyQ (bitsExact mn mx fbw false)).apply (proxyRnd c.strategy false) (proxySat aggressive) x = v ↔
      IsKif (bitsExact mn mx fbw false).k (bitsExact mn mx fbw false).i (bitsExact mn mx fbw false).f v := by
  rw [C11_inference_total] at hv
  have : evalQ c.strategy fbw x = v := by injection hv
  subst this
  have hR : proxyRnd c.strategy false = evalRnd c.strategy := by
    unfold proxyRnd evalRnd
    by_cases h : c.strategy = 3 <;> simp [h]
  rw [hR, evalQ_rndMap]
  exact proxyQ_iff _ (by cases aggressive <;> simp [proxySat]) (tfRound_ge (by exact_mod_cast hf))

/-- **C24** for every input: a dense or convolution layer without relu, any kernel, bias, bitwidths and connectivity, both overflow modes. At each
position the proxy returns the layer's output if and only if that output belongs to the type chosen for this position. -/
theorem C24_iff (L : LinLayer) (s : QState) (h : L.WF s) (hrelu : L.reluAct = false) (aggressive : Bool) (x : List ℚ) (p : ℕ)
    (hp : p < prodL L.outShape) (lo hi : ℚ) (ht : Traced s (L.elem p) lo hi) :
    L.proxyOut s (proxySat aggressive) x p = L.quant s x p ↔
      IsKif (bitsExact lo hi (s.fbw (L.elem p)) false).k (bitsExact lo hi (s.fbw (L.elem p)) false).i (bitsExact lo hi (s.fbw (L.elem p)) false).f
        (L.quant s x p) := by
  have hS : proxySat aggressive ≠ .SAT_SYM := by unfold proxySat; split_ifs <;> simp
  have hf : -32 ≤ tfRound (s.fbw (L.elem p)) := tfRound_ge (by exact_mod_cast ht.fb)
  by_cases hm : L.bias = none ∨ L.biasMask s (L.chan p) = true
  · have hr := pre_round h hp x hm
    unfold LinLayer.proxyOut LinLayer.bitsAt
    rw [ht.mn, ht.mx, WithTop.untopD_coe, WithBot.unbotD_coe]
    simp only [hrelu, Bool.false_eq_true, if_false]
    rw [← hr]
    exact proxyQ_iff _ hS hf
  · push Not at hm
    have hm' : L.biasMask s (L.chan p) = false := by simpa using hm.2
    rw [C23_pruned_proxy_zero L s _ x p hp lo hi ht hm']
    have hz : ¬ 0 < actBw lo hi (s.fbw (L.elem p)) false := by
      unfold LinLayer.biasMask at hm'
      rw [List.any_eq_false] at hm'
      have := hm' p (List.mem_range.mpr hp)
      rw [Bool.and_eq_true, not_and] at this
      have := this (by simp)
      rw [ht.mn, ht.mx, WithTop.untopD_coe, WithBot.unbotD_coe, hrelu] at this
      simpa using this
    have h0 := exact_zero_of_actBw ht.fb ht.glo ht.ghi ht.le hz
    obtain ⟨w1, -, -⟩ := bitsExact_wf lo hi (s.fbw (L.elem p)) false hf
    constructor
    · intro e
      rw [← e]
      refine ⟨⟨0, by simp⟩, ?_, p2_pos _⟩
      rcases w1 with hk | hk <;> rw [hk] <;> simp
      exact (zpow2_pos _).le
    · exact fun e => (isKif_width_zero w1 h0 e).symm

/-- **C27** for every input: an activation layer with any function, deployed, returns the layer's output at a position if and only if that output
belongs to the type chosen for this position. -/
theorem C27_activation_iff (kind : ActKind) (φ : List ℚ → List ℚ) (q : QSite) (s : QState) (aggressive : Bool) (x : List ℚ) (p : ℕ)
    (noise v lo hi : ℚ) (ht : Traced s (q.elem p) lo hi) (hv : q.conf.forward (s.fbw (q.elem p)) ((φ x).getD p 0) noise false = .ok v) :
    (Node.activation kind φ q).proxyAt s (proxySat aggressive) [x] p = v ↔
      IsKif (bitsExact lo hi (s.fbw (q.elem p)) false).k (bitsExact lo hi (s.fbw (q.elem p)) false).i (bitsExact lo hi (s.fbw (q.elem p)) false).f v := by
  rw [← C20_iff q.conf aggressive lo hi _ _ noise v hv ht.fb]
  have e : q.bitsAt s p = bitsExact lo hi (s.fbw (q.elem p)) false := by
    unfold QSite.bitsAt
    rw [ht.mn, ht.mx, WithTop.untopD_coe, WithBot.unbotD_coe]
  rw [← e]
  rfl

/-- **C27**, addition of any number of tensors, for every input -/
theorem C27_add_iff (q : QSite) (s : QState) (aggressive : Bool) (xs : List (List ℚ)) (p : ℕ) (noise v lo hi : ℚ)
    (ht : Traced s (q.elem p) lo hi) (hv : q.conf.forward (s.fbw (q.elem p)) (xs.map fun x => x.getD p 0).sum noise false = .ok v) :
    (Node.add q).proxyAt s (proxySat aggressive) xs p = v ↔
      IsKif (bitsExact lo hi (s.fbw (q.elem p)) false).k (bitsExact lo hi (s.fbw (q.elem p)) false).i (bitsExact lo hi (s.fbw (q.elem p)) false).f v := by
  rw [← C20_iff q.conf aggressive lo hi _ _ noise v hv ht.fb]
  have e : q.bitsAt s p = bitsExact lo hi (s.fbw (q.elem p)) false := by
    unfold QSite.bitsAt
    rw [ht.mn, ht.mx, WithTop.untopD_coe, WithBot.unbotD_coe]
  rw [← e]
  rfl

-- the range [-3, 7/2] at one fractional bit is given a type that also holds -4: the two agree there, although -4 was not recorded, but not at 4
example : bitsExact (-3) (7 / 2) (6 / 5) false = ⟨1, 2, 1⟩ ∧ (proxyQ (bitsExact (-3) (7 / 2) (6 / 5) false)).apply .RND .WRAP (-4) = -4 ∧
    (proxyQ (bitsExact (-3) (7 / 2) (6 / 5) false)).apply .RND .WRAP 4 = -4 := by decide +kernel

end HGQ
