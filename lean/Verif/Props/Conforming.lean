import Verif.Lemmas.ConformingNet
import Verif.Props.Net32

/-!
C107: float32 results do not depend on how a device treats subnormal numbers and overflow.

`Spec.Conforming fl` (`Verif/Spec/Float32.lean`): `fl` rounds numbers in the normal range of float32 to the nearest one, ties to even; what it
does elsewhere is left open.
-/

namespace HGQ

open Spec (IsFloat32 RoundsTo Conforming)

/-! ### the roundings -/

/-- The rounding used in the theorems about float32 is rounding to the nearest number with 24 significant bits, ties to even, and there is
only one such rounding. -/
theorem C107_nearest_even (x y : ℚ) : RoundsTo x y ↔ y = fl32 x :=
  ⟨rounds_unique, fun h => h ▸ fl32_rounds x⟩

theorem isFloat32_p2 (j : ℤ) : IsFloat32 (p2 j) := ⟨1, j, by norm_num, by unfold p2; norm_num⟩

/-- Arithmetic without limits on the exponent, with subnormal numbers, and with results flushed to zero are all conforming. -/
theorem C107_devices : Conforming fl32 ∧ Conforming ieee32 ∧ Conforming ftz32 := by
  refine ⟨⟨fl32_zero, fun x _ _ => fl32_rounds x⟩, ⟨by decide +kernel, fun x h _ => ?_⟩, ⟨by decide +kernel, fun x h _ => ?_⟩⟩
  · unfold ieee32
    rw [if_neg (show ¬ |x| < p2 (-126) from not_lt.mpr h)]
    exact fl32_rounds x
  · have : ¬ |fl32 x| < p2 (-126) := by
      rw [not_lt]
      rcases le_abs.mp h with h | h
      · exact le_trans (le_fl32_of_le (isFloat32_p2 _) h) (le_abs_self _)
      · have := le_fl32_of_le (isFloat32_p2 (-126)) h
        rw [fl32_neg] at this
        exact le_trans this (neg_le_abs _)
    unfold ftz32
    rw [if_neg this]
    exact fl32_rounds x

/-- They differ on numbers below the normal range. -/
theorem C107_devices_differ : ieee32 (3 * p2 (-130)) = 3 * p2 (-130) ∧ ftz32 (3 * p2 (-130)) = 0 ∧
    ieee32 (p2 (-151)) = 0 ∧ fl32 (p2 (-151)) = p2 (-151) := by decide +kernel

/-! ### quantizers -/

/-- **C107**, the inference quantizer: a float32 input below `2^23` units which, before and after scaling, is 0 or not below the normal
range, and at most 90 fractional bits. Two devices return the same number. -/
theorem C107_quantizer (fl fl' : ℚ → ℚ) (hc : Conforming fl) (hc' : Conforming fl') (strategy : ℤ) (fbw x : ℚ) (hx : IsFloat32 x)
    (hb : |x * (2 : ℚ) ^ tfRound fbw| < 2 ^ 23) (hf : |tfRound fbw| ≤ 90)
    (hn : x = 0 ∨ (2 : ℚ) ^ (-126 : ℤ) ≤ |x| ∧ (2 : ℚ) ^ (-126 : ℤ) ≤ |x * (2 : ℚ) ^ tfRound fbw|) :
    evalQF fl strategy fbw x = evalQF fl' strategy fbw x := by
  have h := abs_le.mp hf
  rw [evalQ_conf hc strategy hx hb ⟨h.1, h.2, hn⟩, evalQ_conf hc' strategy hx hb ⟨h.1, h.2, hn⟩]

/-- **C107**, the fixed-point quantizer of the proxy in every rounding and overflow mode: types of at most 22 bits. -/
theorem C107_fixed_point (fl fl' : ℚ → ℚ) (hc : Conforming fl) (hc' : Conforming fl') (x : ℚ) (hx : IsFloat32 x) (k b i : ℤ)
    (hk : k = 0 ∨ k = 1) (hb0 : 0 ≤ b) (hb22 : b ≤ 22) (R : Rnd) (S : Sat) (hb : |x * (2 : ℚ) ^ (b - i)| < 2 ^ 22) (hf : |b - i| ≤ 90)
    (hn : x = 0 ∨ (2 : ℚ) ^ (-126 : ℤ) ≤ |x| ∧ (2 : ℚ) ^ (-126 : ℤ) ≤ |x * (2 : ℚ) ^ (b - i)|) :
    gfixedQuantizerF fl x k b i R S = gfixedQuantizerF fl' x k b i R S := by
  have h := abs_le.mp hf
  rw [gfixed_conf hc R S hx hk hb0 hb22 hb ⟨h.1, h.2, hn⟩, gfixed_conf hc' R S hx hk hb0 hb22 hb ⟨h.1, h.2, hn⟩]

/-- The condition after scaling is needed: with a resolution of `2^20` and truncation, the normal number `-2^-110` is quantized to `-2^20` on
a device with subnormal numbers and to 0 on one which flushes them. -/
theorem C107_underflow : evalQF ieee32 3 (-20) (-p2 (-110)) = -2 ^ 20 ∧ evalQF ftz32 3 (-20) (-p2 (-110)) = 0 ∧
    evalQ 3 (-20) (-p2 (-110)) = -2 ^ 20 ∧
    gfixedQuantizerF ieee32 (-p2 (-110)) 1 2 22 .TRN .SAT = -2 ^ 20 ∧ gfixedQuantizerF ftz32 (-p2 (-110)) 1 2 22 .TRN .SAT = 0 := by
  decide +kernel

example : evalQF ftz32 0 3 (11 / 32) = 3 / 8 ∧ evalQF ieee32 0 3 (11 / 32) = 3 / 8 := by decide +kernel

-- the hypotheses of `C107_quantizer` are met by a small weight
example : |(-3 * p2 (-100)) * (2 : ℚ) ^ tfRound 8| < 2 ^ 23 ∧ |tfRound 8| ≤ 90 ∧ (2 : ℚ) ^ (-126 : ℤ) ≤ |(-3 * p2 (-100))| ∧
    (2 : ℚ) ^ (-126 : ℤ) ≤ |(-3 * p2 (-100)) * (2 : ℚ) ^ tfRound 8| ∧ evalQF ftz32 3 8 (-3 * p2 (-100)) = -1 / 256 := by decide +kernel

/-! ### networks -/

/-- **C107**, calibration: `trace_minmax` on two devices, each with its own treatment of subnormal numbers and overflow and its own
accumulation orders, records the same ranges and returns the same predictions, if on the calibration data the magnitudes fit and stay
in the normal range. -/
theorem C107_calibration (fl fl' : ℚ → ℚ) (hc : Conforming fl) (hc' : Conforming fl') (net : Net) (ss : List QState) (o o' : ℕ → Orders)
    (bsz : ℕ) (data : List (List (List ℚ))) (hw : net.All Node.WF ss) (ho : ∀ i, net.Ordered (o i)) (ho' : ∀ i, net.Ordered (o' i))
    (hfit : ∀ x ∈ data, net.NormalFits ss x) (hbsz : 0 < bsz) : net.traceF fl ss o bsz data = net.traceF fl' ss o' bsz data := by
  rw [trace_conf hc net ss o bsz data hw ho hfit hbsz, trace_conf hc' net ss o' bsz data hw ho' hfit hbsz]
  exact trace32_order net ss o o' bsz data hw ho ho' (fun x hx => (hfit x hx).fits) hbsz

/-- **C107**: `C98_bit_accurate` on three devices: calibration on one, the calibrated model on another, the proxy on a third one, each with
its own treatment of subnormal numbers and overflow and its own accumulation orders. If on the calibration data the magnitudes fit and
stay in the normal range, `trace_minmax` succeeds; if moreover the recorded ranges are below `2^32` and the types have at most 22 bits,
the proxy returns bit for bit the tensors of the model on all calibration samples. -/
theorem C107_bit_accurate (fl fl₁ fl₂ : ℚ → ℚ) (hc : Conforming fl) (hc₁ : Conforming fl₁) (hc₂ : Conforming fl₂)
    (net : Net) (ss : List QState) (o : ℕ → Orders) (bsz : ℕ) (data : List (List (List ℚ))) (aggressive : Bool)
    (hw : net.All Node.WF ss) (ho : ∀ i, net.Ordered (o i)) (hfit : ∀ x ∈ data, net.NormalFits ss x) (hbsz : 0 < bsz) (hne : data ≠ []) :
    ∃ ss' preds, net.traceF fl ss o bsz data = .ok (ss', preds) ∧ ss'.map QState.fbw = ss.map QState.fbw ∧
      (net.All Bounded ss' → net.All Node.TypesFit ss' →
        ∃ pm, net.toProxyF fl₂ (proxySat aggressive) ss' = .ok pm ∧
          (∀ (o' : Orders) (b : ℕ), net.Ordered o' → preds = data.map (pm.eval fun n => o' n b)) ∧
          ∀ x ∈ data, ∀ (o' o'' : Orders) (b : ℕ), net.Ordered o' → net.Ordered o'' →
            net.predictF fl₁ ss' o'' x = .ok (pm.eval (fun n => o' n b) x)) := by
  obtain ⟨ss', h1, h2, h3, h4, h5⟩ := trace32_spec net ss o bsz data hw ho (fun x hx => (hfit x hx).fits) hbsz
  refine ⟨ss', _, (trace_conf hc net ss o bsz data hw ho hfit hbsz).trans h1, h2, fun hbd hty => ?_⟩
  obtain ⟨x0, hx0⟩ := List.exists_mem_of_ne_nil data hne
  have ht : net.All Node.AllTraced ss' := traced_all32 h3 h4 hbd (h5 x0 hx0)
  obtain ⟨pm, hpm⟩ := toProxyF_total (fl := fl₂) (proxySat aggressive) ht
  have hev : ∀ x ∈ data, ∀ (o' : Orders) (b : ℕ), net.Ordered o' →
      pm.eval (fun n => o' n b) x = net.evalEnv32 (ss.map QState.fbw) x := by
    intro x hx o' b ho'
    rw [eval_conf hc₂ aggressive h3 ht hty hpm ho' ((hfit x hx).congr h2) (h5 x hx), h2]
  refine ⟨pm, hpm, fun o' b ho' => ?_, fun x hx o' o'' b ho' ho'' => ?_⟩
  · exact List.map_congr_left fun x hx => (hev x hx o' b ho').symm
  · rw [hev x hx o' b ho', predict_conf hc₁ h3 ho'' ((hfit x hx).congr h2), predict32_eq h3 ho'' ((hfit x hx).congr h2).fits, h2]

/-- **C107**, any input: if all quantizers have recorded a range and the generated types have at most 22 bits, then on every input on which the
magnitudes fit, stay in the normal range, and the quantized values stay in the recorded ranges, the proxy on one device returns the
tensors of the model on another one. -/
theorem C107_in_range (fl fl' : ℚ → ℚ) (hc : Conforming fl) (hc' : Conforming fl') (net : Net) (ss : List QState) (aggressive : Bool)
    (hw : net.All Node.WF ss) (ht : net.All Node.AllTraced ss) (hty : net.All Node.TypesFit ss) :
    ∃ pm, net.toProxyF fl' (proxySat aggressive) ss = .ok pm ∧
      ∀ (x : List (List ℚ)) (o o' : Orders) (b : ℕ), net.Ordered o → net.Ordered o' → net.NormalFits ss x → net.InRange32 ss x →
        net.predictF fl ss o x = .ok (pm.eval (fun n => o' n b) x) := by
  obtain ⟨pm, hpm⟩ := toProxyF_total (fl := fl') (proxySat aggressive) ht
  refine ⟨pm, hpm, fun x o o' b ho ho' hf hx => ?_⟩
  rw [eval_conf hc' aggressive hw ht hty hpm ho' hf hx, predict_conf hc hw ho hf, predict32_eq hw ho hf.fits]

/-! ### the hypotheses are met by the network of `Verif/Props/Net.lean` -/

theorem exDense_normal (r : Bool) (p : ℕ) (hp : p < 2) : (exDense 3 [2] r).Normal32 exState p 5 := by
  refine ⟨by norm_num, fun ij _ => ?_, fun b hb => ?_⟩
  · have h3 : tfRound ((exDense 3 [2] r).kq.clip ((exDense 3 [2] r).kfbw ij.2)) = 3 := by change tfRound 3 = 3; decide +kernel
    rw [h3]
    change Scaled32 3 ([1, -3 / 2, 1 / 2, 1].getD ij.2 (0 : ℚ))
    unfold Scaled32
    match ij.2 with
    | 0 | 1 | 2 | 3 => decide +kernel
    | j + 4 => simp
  · cases hb
    unfold Scaled32
    rcases (show p = 0 ∨ p = 1 by omega) with rfl | rfl <;> cases r <;> decide +kernel

theorem exNet_normalFits : ∀ x ∈ exData32, exNet.NormalFits exNetStates x := by
  intro x hx
  simp only [exData32, List.mem_cons, List.not_mem_nil, or_false] at hx
  have hlin : ∀ x : List ℚ, x = [1, 1 / 4] ∨ x = [-2, 5 / 4] → (Node.linear (exDense 3 [2] true)).NormalFits exState [x] :=
    fun x hx p hp => ⟨2, 3, 5, exDense_fits3 true x hx p hp, exDense_normal true p hp⟩
  have o1 : Node.out32 (.quantize exAct) exState.fbw [[1, 11 / 32]] = [1, 1 / 4] := by decide +kernel
  have o2 : Node.out32 (.quantize exAct) exState.fbw [[-2, 5 / 4]] = [-2, 5 / 4] := by decide +kernel
  have l1 : Node.out32 (.linear (exDense 3 [2] true)) exState.fbw [[1, 1 / 4]] = [1, 0] := by decide +kernel
  have l2 : Node.out32 (.linear (exDense 3 [2] true)) exState.fbw [[-2, 5 / 4]] = [0, 19 / 4] := by decide +kernel
  rcases hx with rfl | rfl
  · refine ⟨?_, ?_⟩
    · intro p hp
      rcases (show p = 0 ∨ p = 1 by have : p < 2 := hp; omega) with rfl | rfl
      · exact ⟨⟨⟨1, 0, by norm_num, by decide +kernel⟩, by decide +kernel⟩, by unfold Scaled32; decide +kernel⟩
      · exact ⟨⟨⟨11, -5, by norm_num, by decide +kernel⟩, by decide +kernel⟩, by unfold Scaled32; decide +kernel⟩
    · change Net.NormalFits _ _ [[1, 11 / 32], Node.out32 (.quantize exAct) exState.fbw [[1, 11 / 32]]]
      rw [o1]
      refine ⟨hlin _ (.inl rfl), ?_⟩
      change Net.NormalFits _ _ [[1, 11 / 32], [1, 1 / 4], Node.out32 (.linear (exDense 3 [2] true)) exState.fbw [[1, 1 / 4]]]
      rw [l1]
      refine ⟨trivial, fun p hp => ⟨5, by norm_num, by norm_num, ?_⟩, trivial⟩
      rcases (show p = 0 ∨ p = 1 by have : p < 2 := hp; omega) with rfl | rfl
      · refine ⟨by decide +kernel, ?_, by decide +kernel⟩
        change ∀ x ∈ [[1, 1 / 4], [(0 : ℚ), 1]], _
        simp only [List.mem_cons, List.not_mem_nil, or_false, forall_eq_or_imp, forall_eq]
        exact ⟨⟨32, by decide +kernel⟩, ⟨0, by decide +kernel⟩⟩
      · refine ⟨by decide +kernel, ?_, by decide +kernel⟩
        change ∀ x ∈ [[1, 1 / 4], [(0 : ℚ), 1]], _
        simp only [List.mem_cons, List.not_mem_nil, or_false, forall_eq_or_imp, forall_eq]
        exact ⟨⟨8, by decide +kernel⟩, ⟨32, by decide +kernel⟩⟩
  · refine ⟨?_, ?_⟩
    · intro p hp
      rcases (show p = 0 ∨ p = 1 by have : p < 2 := hp; omega) with rfl | rfl
      · exact ⟨⟨⟨-2, 0, by norm_num, by decide +kernel⟩, by decide +kernel⟩, by unfold Scaled32; decide +kernel⟩
      · exact ⟨⟨⟨5, -2, by norm_num, by decide +kernel⟩, by decide +kernel⟩, by unfold Scaled32; decide +kernel⟩
    · change Net.NormalFits _ _ [[-2, 5 / 4], Node.out32 (.quantize exAct) exState.fbw [[-2, 5 / 4]]]
      rw [o2]
      refine ⟨hlin _ (.inr rfl), ?_⟩
      change Net.NormalFits _ _ [[-2, 5 / 4], [-2, 5 / 4], Node.out32 (.linear (exDense 3 [2] true)) exState.fbw [[-2, 5 / 4]]]
      rw [l2]
      refine ⟨trivial, fun p hp => ⟨5, by norm_num, by norm_num, ?_⟩, trivial⟩
      rcases (show p = 0 ∨ p = 1 by have : p < 2 := hp; omega) with rfl | rfl
      · refine ⟨by decide +kernel, ?_, by decide +kernel⟩
        change ∀ x ∈ [[(-2 : ℚ), 5 / 4], [(19 / 4 : ℚ), 0]], _
        simp only [List.mem_cons, List.not_mem_nil, or_false, forall_eq_or_imp, forall_eq]
        exact ⟨⟨-64, by decide +kernel⟩, ⟨152, by decide +kernel⟩⟩
      · refine ⟨by decide +kernel, ?_, by decide +kernel⟩
        change ∀ x ∈ [[(-2 : ℚ), 5 / 4], [(19 / 4 : ℚ), 0]], _
        simp only [List.mem_cons, List.not_mem_nil, or_false, forall_eq_or_imp, forall_eq]
        exact ⟨⟨40, by decide +kernel⟩, ⟨0, by decide +kernel⟩⟩

-- calibration on a device which flushes subnormal results, from the left, and on one with subnormal numbers, from the right
example : exNet.traceF ftz32 exNetStates (fun _ => exOrderL) 1 exData32 = exNet.traceF ieee32 exNetStates (fun _ => exOrderR) 1 exData32 :=
  C107_calibration _ _ C107_devices.2.2 C107_devices.2.1 _ _ _ _ _ _ exNet_wf (fun _ => exNet_ordered.1) (fun _ => exNet_ordered.2)
    exNet_normalFits (by decide)

end HGQ
