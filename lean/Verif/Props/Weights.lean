import Verif.Props.Layer

/-!
C65: the weights and biases a layer uses, and the ones deployed in its proxy, are the trained ones quantized to their
bitwidths.
-/

namespace HGQ

open Spec

/-- `w` is the quantization of the trained value `v` with bitwidth `fbw`: a multiple of `2^-m`, with `m` the bitwidth rounded
to an integer, next below `v` for strategy `floor` and nearest to `v` otherwise (ties upwards). -/
def IsQuantized (strategy : ℤ) (fbw v w : ℚ) : Prop :=
  ∃ m n : ℤ, IsNearest fbw m ∧ (IsTie fbw → Even m) ∧ w = n * (2 : ℚ) ^ (-m) ∧
    (strategy = strategyCode "floor" → w ≤ v ∧ v < w + (2 : ℚ) ^ (-m)) ∧
    (strategy ≠ strategyCode "floor" → IsNearest (v * (2 : ℚ) ^ m) n ∧ (IsTie (v * (2 : ℚ) ^ m) → v * (2 : ℚ) ^ m < n))

theorem isQuantized_evalQ (strategy : ℤ) (fbw v : ℚ) : IsQuantized strategy fbw v (evalQ strategy fbw v) := by
  obtain ⟨m, h1, h2, n, h3, h4, h5⟩ := C10_inference_on_grid ⟨strategy, true, none, fun _ => 1, 0⟩ fbw v 0
  rw [C11_inference_total] at h3
  simp only [Except.ok.injEq] at h3
  have e : strategyCode "floor" = 3 := by decide
  rw [IsQuantized, e]
  refine ⟨m, n, h1, h2, h3, fun h => ?_, h5⟩
  obtain ⟨a, b⟩ := h4 h
  rw [h3]
  exact ⟨a, by linarith⟩

/-- **C65**, kernel: what the layer multiplies its input with, in HGQ and in the proxy, is the quantized kernel. For every
input there are quantized weights `w` such that the output before bias of the deployed layer is the weighted sum over its
connections. The same `w` serve every input, every position and the HGQ layer. -/
theorem C65_kernel_quantized (L : LinLayer) : ∃ w : ℕ → ℚ,
    (∀ j, IsQuantized L.kq.strategy (L.kq.clip (L.kfbw j)) (L.kernel j) (w j)) ∧
    (∀ s x p, L.klayer s x p = ((L.taps p).map fun ij => x.getD ij.1 0 * w ij.2).sum + L.fusedQBias s (L.chan p)) ∧
    ∀ fbw x p, L.pre fbw x p = ((L.taps p).map fun ij => x.getD ij.1 0 * w ij.2).sum + L.jitBias fbw (L.chan p) :=
  ⟨L.qkernel, fun _ => isQuantized_evalQ _ _ _, fun _ _ _ => rfl, fun _ _ _ => rfl⟩

/-- **C65**, bias: the deployed bias is 0 for a channel in which nothing is active; otherwise it is the trained bias
quantized with the largest bitwidth of its channel, raised by half of its last bit exactly if the layer's rounding is
absorbed into it. -/
theorem C65_bias_quantized (L : LinLayer) (s : QState) (b : ℕ → ℚ) (hb : L.bias = some b) (c : ℕ) :
    (L.biasMask s c = false → L.fusedQBias s c = 0) ∧
    (L.biasMask s c = true → ∃ w, IsQuantized L.paq.strategy (maxFbw s.fbw (redElems L.qShape L.chLoc c)) (b c) w ∧
      (¬ (L.paq.strategy ≠ strategyCode "floor" ∧ L.canBiasCover = true) → L.fusedQBias s c = w) ∧
      (L.paq.strategy ≠ strategyCode "floor" ∧ L.canBiasCover = true → ∃ m : ℤ,
        IsNearest (maxFbw s.fbw (redElems L.qShape L.chLoc c)) m ∧ L.fusedQBias s c = w + (2 : ℚ) ^ (-m) / 2)) := by
  have e : strategyCode "floor" = 3 := by decide
  constructor
  · exact C23_masked_bias L s c
  · intro hm
    refine ⟨_, isQuantized_evalQ _ _ _, ?_, ?_⟩
    · intro h
      rw [e] at h
      unfold LinLayer.fusedQBias
      rw [hb]
      simp only [hm, if_true, if_neg h]
      rfl
    · intro h
      rw [e] at h
      refine ⟨tfRound (maxFbw s.fbw (redElems L.qShape L.chLoc c)), isNearest_of_abs_le_half (tfRound_bounds _), ?_⟩
      unfold LinLayer.fusedQBias
      rw [hb]
      simp only [hm, if_true, if_pos h]
      unfold LinLayer.qbias
      rw [add_comm]
      congr 1
      change p2 (-_ - 1) = p2 (-_) / 2
      rw [sub_eq_add_neg, p2_add]
      norm_num [p2, div_eq_mul_inv]

/-- maximum of the bitwidths of a channel: attained and an upper bound -/
theorem C65_bias_bitwidth_is_max (fbw : ℕ → ℚ) (l : List ℕ) (hl : l ≠ []) :
    (∃ e ∈ l, maxFbw fbw l = fbw e) ∧ ∀ e ∈ l, fbw e ≤ maxFbw fbw l := by
  induction l with
  | nil => exact absurd rfl hl
  | cons a l ih =>
    cases l with
    | nil => simp [maxFbw]
    | cons b t =>
      obtain ⟨⟨e, he, h1⟩, h2⟩ := ih (by simp)
      rw [maxFbw]
      · constructor
        · rcases max_choice (fbw a) (maxFbw fbw (b :: t)) with h | h
          · exact ⟨a, by simp, h⟩
          · exact ⟨e, by simp only [List.mem_cons] at he ⊢; right; exact he, by rw [h, h1]⟩
        · intro e' he'
          rcases List.mem_cons.mp he' with rfl | h
          · exact le_max_left _ _
          · exact (h2 e' h).trans (le_max_right _ _)
      · simp

/-! Non-vacuity: a weight that really changes, a bias with absorbed rounding. -/

example : (exDense 0 [2] false).bias ≠ none ∧ (exDense 0 [2] false).canBiasCover = true ∧
    (exDense 0 [2] false).biasMask exState 1 = true := by
  refine ⟨by simp [exDense], by decide, by decide +kernel⟩

example : IsQuantized 0 (13 / 10) (7 / 10) (1 / 2) := by
  have := isQuantized_evalQ 0 (13 / 10) (7 / 10)
  rwa [show evalQ 0 (13 / 10) (7 / 10) = 1 / 2 by decide +kernel] at this

end HGQ
