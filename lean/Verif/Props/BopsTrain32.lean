import Verif.Props.ArrBits32Iff
import Verif.Props.BopsTrainNet

/-!
C76 for whole models with the weight bits counted in float32, as `trace_minmax` does.
-/

namespace HGQ
open Spec (IsFloat32)

/-- a kernel of `n` float32 weights with at most 31 fractional bits in which no weight of the largest magnitude is a power of two from `2^-8` on that is
also the resolution of its quantizer (the condition of `C32_kernel_float32_iff`) -/
def LinLayer.Kernel32 (L : LinLayer) (n : ℕ) : Prop :=
  (∀ j < n, L.kq.clip (L.kfbw j) ≤ 31) ∧ (∀ j < n, IsFloat32 (L.qkernel j)) ∧
    ∀ j < n, ∀ e : ℤ, -8 ≤ e → |L.qkernel j| = (2 : ℚ) ^ e → tfRound (L.kq.clip (L.kfbw j)) = -e → ∃ j' < n, |L.qkernel j| < |L.qkernel j'|

theorem bitsOk_fl32 {L : LinLayer} {n : ℕ} (h : L.Kernel32 n) : L.BitsOk fl32 n :=
  ⟨kernelBits_nonneg L fl32 n h.1, kernelBits32_le L n h.1 h.2.1 h.2.2⟩

/-- **C76** in float32, whole models: if the exact BOPs of the model, with the weight bits counted in float32, are `B`, then with one `beta` for all layers
the loss reported by the model in the same state is the task loss plus `beta` times a number of BOPs that is at least `B`. Missing: kernels outside
`Kernel32`. -/
theorem C76_model_float32_partial (net : Net) (m : BopsModel) (ss : List LState) (hc : ∀ c ∈ m.calls, c ≤ 1)
    (hs : ∀ (i : ℕ) nd ins s q, net[i]? = some (nd, ins) → ss[i]? = some s → nd.site = some q → SiteTraced q s.q)
    (hsig : ∀ bits, BwRule.signature bits ∈ m.bw → ∀ b ∈ bits, 0 ≤ b)
    (hr : ∀ (i : ℕ) nd ins r, net[i]? = some (nd, ins) → m.bops[i]? = some r → r ≠ .none →
      ∃ L n pf, nd = .linear L ∧ (r = .dense n ∨ r = .conv n pf) ∧ L.Kernel32 n)
    (B : ℚ) (hB : sumBops (net.exactBops m fl32) ss (List.range net.length) = .ok B) (beta task : ℚ) :
    ∃ t : ℚ, net.evalLoss m (fun _ => beta) ss task = .ok (.fin (task + t * beta)) ∧ B ≤ t :=
  evalLoss_ge fl32 net m ss hc hs hsig (fun i nd ins r h1 h2 h3 =>
    let ⟨L, n, pf, h4, h5, h6⟩ := hr i nd ins r h1 h2 h3
    ⟨L, n, pf, h4, h5, bitsOk_fl32 h6⟩) B hB beta task

/-- **C76** in float32, from calibration to the reported loss: after `trace_minmax` over any non-empty dataset (recorded ranges below `2^32`), if the exact
BOPs of the model, with the weight bits counted in float32, can be computed and are `B`, the loss the model reports from then on is the task loss plus
`beta` times a number of BOPs that is at least `B`. Missing: kernels outside `Kernel32`. -/
theorem C76_calibrated_float32_partial (net : Net) (m : BopsModel) (ss : List QState) (bsz : ℕ) (data : List (List (List ℚ)))
    (hw : net.All Node.WF ss) (hbsz : 0 < bsz) (hne : data ≠ []) (hc : ∀ c ∈ m.calls, c ≤ 1)
    (hsig : ∀ bits, BwRule.signature bits ∈ m.bw → ∀ b ∈ bits, 0 ≤ b)
    (hr : ∀ (i : ℕ) nd ins r, net[i]? = some (nd, ins) → m.bops[i]? = some r → r ≠ .none →
      ∃ L n pf, nd = .linear L ∧ (r = .dense n ∨ r = .conv n pf) ∧ L.Kernel32 n) :
    ∃ ss' preds, net.trace ss bsz data = .ok (ss', preds) ∧
      (net.All Bounded ss' → ∀ B, sumBops (net.exactBops m fl32) (ss'.map fun s => ⟨s, false⟩) (List.range net.length) = .ok B → ∀ beta task,
        ∃ t : ℚ, net.evalLoss m (fun _ => beta) (ss'.map fun s => ⟨s, false⟩) task = .ok (.fin (task + t * beta)) ∧ B ≤ t) := by
  obtain ⟨ss', h1, -, h3, h4, h5⟩ := trace_spec net ss bsz data hw hbsz
  refine ⟨ss', _, h1, fun hb B hB beta task => ?_⟩
  obtain ⟨x0, hx0⟩ := List.exists_mem_of_ne_nil data hne
  have htr : net.All Node.AllTraced ss' := traced_all h3 h4 hb (h5 x0 hx0)
  refine C76_model_float32_partial net m _ hc ?_ hsig hr B hB beta task
  intro i nd ins s q h6 h7 h8
  rw [List.getElem?_map] at h7
  obtain ⟨s', h9, rfl⟩ := Option.map_eq_some_iff.mp h7
  exact ⟨(netAll_get h3 h6 h9).shape q h8, netAll_get htr h6 h9 q h8⟩

theorem exBops_kernels32 : ∀ (i : ℕ) nd ins r, exBopsNet[i]? = some (nd, ins) → exBopsModel.bops[i]? = some r → r ≠ .none →
    ∃ L n pf, nd = .linear L ∧ (r = .dense n ∨ r = .conv n pf) ∧ L.Kernel32 n := by
  intro i nd ins r h1 h2 h3
  match i, h1, h2 with
  | 0, _, h2 => cases h2; exact absurd rfl h3
  | 1, h1, h2 =>
    cases h1
    cases h2
    exact ⟨_, 4, 0, rfl, .inl rfl, exDense_float32.1, exDense_float32.2.1, fun j hj e he hae _ => exDense_float32.2.2 j hj e he hae⟩
  | 2, _, h2 => cases h2; exact absurd rfl h3
  | 3, _, h2 => cases h2; exact absurd rfl h3
  | i + 4, h1, _ => cases h1

-- the network of BitsFlow: 15 exact BOPs in float32 as well
example : ∃ t : ℚ, exBopsNet.evalLoss exBopsModel (fun _ => 1 / 100) exBopsStates (1 / 2) = .ok (.fin (1 / 2 + t * (1 / 100))) ∧ 15 ≤ t :=
  C76_model_float32_partial exBopsNet exBopsModel exBopsStates (by decide) exBops_traced (by intro bits h; simp [exBopsModel] at h) exBops_kernels32 15
    (by decide +kernel) _ _

example := C76_calibrated_float32_partial exBopsNet exBopsModel (exBopsStates.map LState.q) 1 [[[1, 3 / 2]], [[-2, 1 / 3]]] exBops_wf (by decide) (by simp)
  (by decide) (by intro bits h; simp [exBopsModel] at h) exBops_kernels32

end HGQ
