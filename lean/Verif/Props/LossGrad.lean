import Verif.Model.LossGrad
import Verif.Props.BitsFlow

/-!
C87: the loss terms on bitwidths pull bitwidths down and nothing else.
-/

namespace HGQ

open Dual

/-! ### sums -/

theorem sumD_v (l : List Dual) : (sumD l).v = (l.map (·.v)).sum := by
  induction l with
  | nil => rfl
  | cons a l ih => simp only [sumD, List.foldr_cons, List.map_cons, List.sum_cons]; rw [← ih]; rfl

theorem sumD_d (l : List Dual) : (sumD l).d = (l.map (·.d)).sum := by
  induction l with
  | nil => rfl
  | cons a l ih => simp only [sumD, List.foldr_cons, List.map_cons, List.sum_cons]; rw [← ih]; rfl

theorem mulD_v (L : LinLayer) (a k : List Dual) : (L.mulD a k).v = ((List.range (prodL L.outShape)).map fun p =>
    ((L.taps p).map fun ij => (a.getD ij.1 (const 0)).v * (k.getD ij.2 (const 0)).v).sum).sum := by
  unfold LinLayer.mulD
  rw [sumD_v, List.map_map]
  congr 1
  refine List.map_congr_left fun p _ => ?_
  simp only [Function.comp, sumD_v, List.map_map]
  rfl

theorem mulD_d (L : LinLayer) (a k : List Dual) : (L.mulD a k).d = ((List.range (prodL L.outShape)).map fun p =>
    ((L.taps p).map fun ij => (a.getD ij.1 (const 0)).d * (k.getD ij.2 (const 0)).v +
      (a.getD ij.1 (const 0)).v * (k.getD ij.2 (const 0)).d).sum).sum := by
  unfold LinLayer.mulD
  rw [sumD_d, List.map_map]
  congr 1
  refine List.map_congr_left fun p _ => ?_
  simp only [Function.comp, sumD_d, List.map_map]
  rfl

/-! ### one bitwidth -/

/-- value and derivative of the number of bits: the derivative of the bitwidth times `sd` while there are bits, 0 otherwise -/
theorem bwD_eq (i : WithBot ℤ) (kn : ℤ) (fbw : Dual) (sd : ℚ) :
    (bwD i kn fbw sd).v = reluBits i (tfRound fbw.v + kn) ∧
    (bwD i kn fbw sd).d = if 0 < reluBits i (tfRound fbw.v + kn) then fbw.d * sd else 0 := by
  cases i with
  | bot => exact ⟨rfl, rfl⟩
  | coe n =>
    have hv : (add (add (const (n : ℚ)) (fpBitsD fbw)) (const (kn : ℚ))).v = ((n + (tfRound fbw.v + kn) : ℤ) : ℚ) := by
      simp only [add, const, fpBitsD, sub, stop]
      push_cast
      ring
    have hd : (add (add (const (n : ℚ)) (fpBitsD fbw)) (const (kn : ℚ))).d = fbw.d := by
      simp only [add, const, fpBitsD, sub, stop]
      ring
    have hr : reluBits (n : ℤ) (tfRound fbw.v + kn) = max (n + (tfRound fbw.v + kn)) 0 := rfl
    show (scaleGradD (reluD _) sd).v = _ ∧ (scaleGradD (reluD _) sd).d = _
    rw [hr]
    unfold reluD
    rw [hv]
    by_cases h : 0 < n + (tfRound fbw.v + kn)
    · rw [if_pos (by exact_mod_cast h), if_pos (lt_max_of_lt_left h), max_eq_left h.le]
      constructor
      · simp only [scaleGradD, add, mul, const, sub, stop, hv] at hv ⊢
        linarith
      · simp only [scaleGradD, add, mul, const, sub, stop] at hd ⊢
        rw [show (0 : ℚ) + (fpBitsD fbw).d + 0 = fbw.d from hd]
        ring
    · rw [if_neg (by exact_mod_cast h), if_neg (by rw [max_eq_right (not_lt.mp h)]; exact lt_irrefl _), max_eq_right (not_lt.mp h)]
      simp [scaleGradD, add, mul, const, sub, stop]

theorem kernelBwD_v (L : LinLayer) (n : ℕ) (wD fbwD : ℕ → ℚ) (sd : ℚ) (j : ℕ) :
    ((L.kernelBwD n wD fbwD sd).getD j (const 0)).v = (L.kernelBitsTrain n).getD j 0 := by
  unfold LinLayer.kernelBwD LinLayer.kernelBitsTrain
  by_cases h : j < n
  · simp only [List.getD_eq_getElem?_getD, List.getElem?_map, List.getElem?_range h, Option.map_some, Option.getD_some]
    rw [show HGQ.kernelBwD _ _ sd = bwD _ 0 _ sd from rfl, (bwD_eq _ _ _ _).1, add_zero]
    rfl
  · simp [List.getElem?_eq_none (l := List.range n) (by simpa using h), const]

theorem kernelBwD_d (L : LinLayer) (n : ℕ) (wD fbwD : ℕ → ℚ) (sd : ℚ) (j : ℕ) :
    ((L.kernelBwD n wD fbwD sd).getD j (const 0)).d = if 0 < (L.kernelBitsTrain n).getD j 0 then fbwD j * sd else 0 := by
  unfold LinLayer.kernelBwD LinLayer.kernelBitsTrain
  by_cases h : j < n
  · simp only [List.getD_eq_getElem?_getD, List.getElem?_map, List.getElem?_range h, Option.map_some, Option.getD_some]
    rw [show HGQ.kernelBwD _ _ sd = bwD _ 0 _ sd from rfl, (bwD_eq _ _ _ _).2, add_zero]
    rfl
  · simp [List.getElem?_eq_none (l := List.range n) (by simpa using h), const]

theorem actBwD_eq (mn mx : ℚ) (fbw : Dual) (relu : Bool) (sd : ℚ) :
    (actBwD mn mx fbw relu sd).v = actBw mn mx fbw.v relu ∧
    (actBwD mn mx fbw relu sd).d = if 0 < actBw mn mx fbw.v relu then fbw.d * sd else 0 := by
  have h := bwD_eq (bitsApprox mn mx fbw.v relu).1 (if relu then 0 else (bitsApprox mn mx fbw.v relu).2.2) fbw sd
  have e : reluBits (bitsApprox mn mx fbw.v relu).1 (tfRound fbw.v + if relu then 0 else (bitsApprox mn mx fbw.v relu).2.2) =
      actBw mn mx fbw.v relu := by
    unfold actBw
    cases relu <;> simp [bitsApprox]
  rw [e] at h
  exact h

theorem siteBwD_v (q : QSite) (posOnly : Bool) (s : QState) (fbwD : ℕ → ℚ) (sd : ℚ) (i : ℕ) :
    ((q.actBwD posOnly s fbwD sd).getD i (const 0)).v = (q.actBitsTrain posOnly s).getD i 0 := by
  unfold QSite.actBwD QSite.actBitsTrain
  by_cases h : i < prodL q.outShape
  · simp only [List.getD_eq_getElem?_getD, List.getElem?_map, List.getElem?_range h, Option.map_some, Option.getD_some]
    rw [(actBwD_eq _ _ _ _ _).1]
  · simp [List.getElem?_eq_none (l := List.range (prodL q.outShape)) (by simpa using h), const]

theorem siteBwD_d (q : QSite) (posOnly : Bool) (s : QState) (fbwD : ℕ → ℚ) (sd : ℚ) (i : ℕ) :
    ((q.actBwD posOnly s fbwD sd).getD i (const 0)).d =
      if 0 < (q.actBitsTrain posOnly s).getD i 0 then fbwD (q.elem i) * sd else 0 := by
  unfold QSite.actBwD QSite.actBitsTrain
  by_cases h : i < prodL q.outShape
  · simp only [List.getD_eq_getElem?_getD, List.getElem?_map, List.getElem?_range h, Option.map_some, Option.getD_some]
    rw [(actBwD_eq _ _ _ _ _).2]
  · simp [List.getElem?_eq_none (l := List.range (prodL q.outShape)) (by simpa using h), const]

/-! ### C87 -/

/-- what a layer's BOPs are multiplied with in the loss: `beta`, and for a convolution the number of positions computed in parallel
over the number of positions -/
def Spec.strength (L : LinLayer) (rule : BopsRule) (beta : ℚ) : ℚ :=
  match rule with
  | .dense _ => beta
  | .conv _ pf => pf / prodL L.outShape.dropLast * beta
  | .none => 0

theorem bopsLossD_eq (L : LinLayer) (rule : BopsRule) (beta : ℚ) (a k : List Dual) :
    (L.bopsLossD rule beta a k).v = (L.mulD a k).v * Spec.strength L rule beta ∧
    (L.bopsLossD rule beta a k).d = (L.mulD a k).d * Spec.strength L rule beta := by
  cases rule with
  | dense n => simp [LinLayer.bopsLossD, Spec.strength, mul, const]
  | none => simp [LinLayer.bopsLossD, Spec.strength, const]
  | conv n pf =>
    simp only [LinLayer.bopsLossD, Spec.strength, mul, const, div, mul_zero, add_zero, sub_zero]
    by_cases h : ((prodL L.outShape.dropLast : ℕ) : ℚ) = 0
    · simp [h]
    · constructor <;> field_simp

/-- number of weights of the layer -/
def BopsRule.nWeights : BopsRule → ℕ
  | .dense n => n
  | .conv n _ => n
  | .none => 0

/-- **C87**, value: the term added to the loss is `beta` times the BOPs estimated in training. -/
theorem C87_value (L : LinLayer) (rule : BopsRule) (beta : ℚ) (q : QSite) (posOnly : Bool) (s : QState) (aD wD kD : ℕ → ℚ) (sa sk : ℚ) :
    (L.bopsLossD rule beta (q.actBwD posOnly s aD sa) (L.kernelBwD rule.nWeights wD kD sk)).v =
      (Node.linear L).trainBops rule (q.actBitsTrain posOnly s) * beta := by
  rw [(bopsLossD_eq _ _ _ _ _).1, mulD_v]
  simp only [kernelBwD_v, siteBwD_v]
  have e : ∀ n, (((List.range (prodL L.outShape)).map fun p => ((L.taps p).map fun ij =>
      (((q.actBitsTrain posOnly s).getD ij.1 0 : ℤ) : ℚ) * (((L.kernelBitsTrain n).getD ij.2 0 : ℤ) : ℚ)).sum).sum : ℚ) =
      (L.mulBits (q.actBitsTrain posOnly s) (L.kernelBitsTrain n) : ℤ) := by
    intro n
    unfold LinLayer.mulBits
    rw [Int.cast_list_sum, List.map_map]
    congr 1
    refine List.map_congr_left fun p _ => ?_
    simp only [Function.comp, Int.cast_list_sum, List.map_map]
    congr 1
    refine List.map_congr_left fun ij _ => ?_
    simp
  rw [e]
  cases rule with
  | dense n => rfl
  | none => simp [Spec.strength, Node.trainBops]
  | conv n pf =>
    simp only [Spec.strength, Node.trainBops, BopsRule.nWeights]
    ring

/-- **C87**, gradient: the derivative of the term with respect to any variable, given the derivatives `aD`, `kD` of the
bitwidths and `wD` of the quantized weights with respect to it: every multiplication contributes the bits of one factor times
the derivative of the bitwidth of the other, as long as the other has bits at all. The weights themselves have no
influence. -/
theorem C87_gradient (L : LinLayer) (rule : BopsRule) (beta : ℚ) (q : QSite) (posOnly : Bool) (s : QState) (aD wD kD : ℕ → ℚ)
    (sa sk : ℚ) :
    let A := fun i => (q.actBitsTrain posOnly s).getD i 0
    let K := fun j => (L.kernelBitsTrain rule.nWeights).getD j 0
    (L.bopsLossD rule beta (q.actBwD posOnly s aD sa) (L.kernelBwD rule.nWeights wD kD sk)).d =
      ((List.range (prodL L.outShape)).map fun p => ((L.taps p).map fun ij =>
        (if 0 < A ij.1 then aD (q.elem ij.1) * sa else 0) * K ij.2 +
        A ij.1 * (if 0 < K ij.2 then kD ij.2 * sk else 0)).sum).sum * Spec.strength L rule beta := by
  intro A K
  rw [(bopsLossD_eq _ _ _ _ _).2, mulD_d]
  simp only [kernelBwD_v, siteBwD_v, kernelBwD_d, siteBwD_d, A, K]

theorem actBitsTrain_nonneg (q : QSite) (posOnly : Bool) (s : QState) (i : ℕ) : 0 ≤ (q.actBitsTrain posOnly s).getD i 0 := by
  have hr : ∀ i f, 0 ≤ reluBits i f := by
    intro i f
    cases i with
    | bot => exact le_refl _
    | coe n => exact le_max_right _ _
  unfold QSite.actBitsTrain
  by_cases h : i < prodL q.outShape
  · simp only [List.getD_eq_getElem?_getD, List.getElem?_map, List.getElem?_range h, Option.map_some, Option.getD_some]
    unfold actBw
    cases posOnly <;> exact hr _ _
  · simp [List.getElem?_eq_none (l := List.range (prodL q.outShape)) (by simpa using h)]

theorem kernelBitsTrain_nonneg (L : LinLayer) (n j : ℕ) : 0 ≤ (L.kernelBitsTrain n).getD j 0 := by
  have hr : ∀ i f, 0 ≤ reluBits i f := by
    intro i f
    cases i with
    | bot => exact le_refl _
    | coe n => exact le_max_right _ _
  unfold LinLayer.kernelBitsTrain
  by_cases h : j < n
  · simp only [List.getD_eq_getElem?_getD, List.getElem?_map, List.getElem?_range h, Option.map_some, Option.getD_some]
    exact hr _ _
  · simp [List.getElem?_eq_none (l := List.range n) (by simpa using h)]

theorem strength_nonneg (L : LinLayer) (rule : BopsRule) {beta : ℚ} (hb : 0 ≤ beta) : 0 ≤ Spec.strength L rule beta := by
  cases rule with
  | dense n => exact hb
  | none => exact le_refl _
  | conv n pf => exact mul_nonneg (div_nonneg (Nat.cast_nonneg _) (Nat.cast_nonneg _)) hb

/-- the derivative of the loss term with respect to the bitwidth `e` of the layer's kernel, shared by the weights `j` with `grp j = e` -/
def dKernel (L : LinLayer) (rule : BopsRule) (beta : ℚ) (q : QSite) (posOnly : Bool) (s : QState) (grp : ℕ → ℕ) (sa sk : ℚ) (e : ℕ) : ℚ :=
  (L.bopsLossD rule beta (q.actBwD posOnly s (fun _ => 0) sa)
    (L.kernelBwD rule.nWeights (fun _ => 0) (fun j => if grp j = e then 1 else 0) sk)).d

/-- the derivative with respect to the bitwidth `e` of the quantizer of the layer before -/
def dAct (L : LinLayer) (rule : BopsRule) (beta : ℚ) (q : QSite) (posOnly : Bool) (s : QState) (sa sk : ℚ) (e : ℕ) : ℚ :=
  (L.bopsLossD rule beta (q.actBwD posOnly s (fun i => if i = e then 1 else 0) sa)
    (L.kernelBwD rule.nWeights (fun _ => 0) (fun _ => 0) sk)).d

/-- the derivative with respect to the quantized weight `j` -/
def dWeight (L : LinLayer) (rule : BopsRule) (beta : ℚ) (q : QSite) (posOnly : Bool) (s : QState) (sa sk : ℚ) (j : ℕ) : ℚ :=
  (L.bopsLossD rule beta (q.actBwD posOnly s (fun _ => 0) sa)
    (L.kernelBwD rule.nWeights (fun i => if i = j then 1 else 0) (fun _ => 0) sk)).d

theorem dsum_nonneg {L : LinLayer} {f : ℕ × ℕ → ℚ} (h : ∀ p ij, ij ∈ L.taps p → 0 ≤ f ij) :
    0 ≤ ((List.range (prodL L.outShape)).map fun p => ((L.taps p).map f).sum).sum := by
  refine List.sum_nonneg fun v hv => ?_
  obtain ⟨p, -, rfl⟩ := List.mem_map.mp hv
  refine List.sum_nonneg fun v hv => ?_
  obtain ⟨ij, hij, rfl⟩ := List.mem_map.mp hv
  exact h p ij hij

/-- **C87**, direction: the gradient of the term with respect to every bitwidth, of the kernel and of the layer before, is not
negative, so a gradient step on it (any step size) never raises a bitwidth; with respect to weights it is 0. -/
theorem C87_pulls_down (L : LinLayer) (rule : BopsRule) (beta : ℚ) (hb : 0 ≤ beta) (q : QSite) (posOnly : Bool) (s : QState)
    (grp : ℕ → ℕ) (sa sk : ℚ) (hsa : 0 ≤ sa) (hsk : 0 ≤ sk) (e : ℕ) :
    0 ≤ dKernel L rule beta q posOnly s grp sa sk e ∧ 0 ≤ dAct L rule beta q posOnly s sa sk e ∧
    dWeight L rule beta q posOnly s sa sk e = 0 ∧
    ∀ (f lr : ℚ), 0 ≤ lr → f - lr * dKernel L rule beta q posOnly s grp sa sk e ≤ f ∧
      f - lr * dAct L rule beta q posOnly s sa sk e ≤ f := by
  have hA := actBitsTrain_nonneg q posOnly s
  have hK := kernelBitsTrain_nonneg L rule.nWeights
  have h1 : 0 ≤ dKernel L rule beta q posOnly s grp sa sk e := by
    unfold dKernel
    rw [C87_gradient]
    refine mul_nonneg (dsum_nonneg fun p ij _ => ?_) (strength_nonneg L rule hb)
    refine add_nonneg (mul_nonneg ?_ (by exact_mod_cast hK _)) (mul_nonneg (by exact_mod_cast hA _) ?_)
    · split_ifs <;> simp
    · split_ifs <;> simp [hsk]
  have h2 : 0 ≤ dAct L rule beta q posOnly s sa sk e := by
    unfold dAct
    rw [C87_gradient]
    refine mul_nonneg (dsum_nonneg fun p ij _ => ?_) (strength_nonneg L rule hb)
    refine add_nonneg (mul_nonneg ?_ (by exact_mod_cast hK _)) (mul_nonneg (by exact_mod_cast hA _) ?_)
    · split_ifs <;> simp [hsa]
    · split_ifs <;> simp
  refine ⟨h1, h2, ?_, fun f lr hlr => ⟨by linarith [mul_nonneg hlr h1], by linarith [mul_nonneg hlr h2]⟩⟩
  unfold dWeight
  rw [C87_gradient]
  simp

/-- a sum of non-negative terms is 0 only if all are -/
theorem dsum_eq_zero {L : LinLayer} {f : ℕ × ℕ → ℚ} (h : ∀ p ij, ij ∈ L.taps p → 0 ≤ f ij) :
    ((List.range (prodL L.outShape)).map fun p => ((L.taps p).map f).sum).sum = 0 ↔
      ∀ p < prodL L.outShape, ∀ ij ∈ L.taps p, f ij = 0 := by
  have hz : ∀ l : List ℚ, (∀ v ∈ l, 0 ≤ v) → (l.sum = 0 ↔ ∀ v ∈ l, v = 0) := by
    intro l
    induction l with
    | nil => simp
    | cons a l ih =>
      intro hl
      have ha := hl a (by simp)
      have hs : 0 ≤ l.sum := List.sum_nonneg fun v hv => hl v (by simp [hv])
      have := ih fun v hv => hl v (by simp [hv])
      rw [List.sum_cons, List.forall_mem_cons, ← this]
      constructor
      · intro h; constructor <;> linarith
      · rintro ⟨h1, h2⟩; rw [h1, h2, add_zero]
  have hin : ∀ p, 0 ≤ ((L.taps p).map f).sum := fun p => List.sum_nonneg fun v hv => by
    obtain ⟨ij, hij, rfl⟩ := List.mem_map.mp hv
    exact h p ij hij
  rw [hz _ fun v hv => by obtain ⟨p, -, rfl⟩ := List.mem_map.mp hv; exact hin p]
  simp only [List.mem_map, forall_exists_index, and_imp, forall_apply_eq_imp_iff₂, List.mem_range]
  refine forall₂_congr fun p _ => ?_
  rw [hz _ fun v hv => by obtain ⟨ij, hij, rfl⟩ := List.mem_map.mp hv; exact h p ij hij]
  simp only [List.mem_map, forall_exists_index, and_imp, forall_apply_eq_imp_iff₂]

/-- **C87**, where it stops: with a positive strength the term stops pulling at a kernel bitwidth exactly when each multiplication it
takes part in has a weight without bits or an input without bits; in particular bitwidths of pruned weights (no bits)
are left alone. -/
theorem C87_kernel_stops_iff (L : LinLayer) (rule : BopsRule) (beta : ℚ) (hstr : 0 < Spec.strength L rule beta) (q : QSite)
    (posOnly : Bool) (s : QState) (grp : ℕ → ℕ) (sa sk : ℚ) (hsk : 0 < sk) (e : ℕ) :
    dKernel L rule beta q posOnly s grp sa sk e = 0 ↔
      ∀ p < prodL L.outShape, ∀ ij ∈ L.taps p, grp ij.2 = e →
        (L.kernelBitsTrain rule.nWeights).getD ij.2 0 = 0 ∨ (q.actBitsTrain posOnly s).getD ij.1 0 = 0 := by
  have hA := actBitsTrain_nonneg q posOnly s
  have hK := kernelBitsTrain_nonneg L rule.nWeights
  unfold dKernel
  rw [C87_gradient]
  dsimp only
  rw [mul_eq_zero, or_iff_left hstr.ne']
  rw [dsum_eq_zero (f := fun ij => (if 0 < (q.actBitsTrain posOnly s).getD ij.1 0 then 0 * sa else 0) *
    (((L.kernelBitsTrain rule.nWeights).getD ij.2 0 : ℤ) : ℚ) + (((q.actBitsTrain posOnly s).getD ij.1 0 : ℤ) : ℚ) *
      (if 0 < (L.kernelBitsTrain rule.nWeights).getD ij.2 0 then (if grp ij.2 = e then 1 else 0) * sk else 0))]
  · refine forall₂_congr fun p _ => forall₂_congr fun ij _ => ?_
    have e0 : (if 0 < (q.actBitsTrain posOnly s).getD ij.1 0 then 0 * sa else (0 : ℚ)) = 0 := by split_ifs <;> simp
    rw [e0, zero_mul, zero_add, mul_eq_zero]
    constructor
    · rintro (h | h) hg
      · exact .inr (by exact_mod_cast h)
      · left
        by_contra hne
        rw [if_pos (lt_of_le_of_ne (hK _) (Ne.symm hne)), if_pos hg, one_mul] at h
        exact hsk.ne' h
    · intro h
      by_cases hg : grp ij.2 = e
      · rcases h hg with h | h
        · right; rw [if_neg (by rw [h]; exact lt_irrefl _)]
        · left; exact_mod_cast h
      · right; rw [if_neg hg]; split_ifs <;> simp
  · intro p ij _
    refine add_nonneg (mul_nonneg ?_ (by exact_mod_cast hK _)) (mul_nonneg (by exact_mod_cast hA _) ?_)
    · split_ifs <;> simp
    · split_ifs <;> simp [hsk.le]

/-- **C87**, regularizer: `MonoL1(l1)` refuses negative strengths; its gradient with respect to every bitwidth of the tensor is `l1`,
whatever the bitwidths are: pruned ones are pulled down as well. -/
theorem C87_regularizer (l1 : ℚ) (fbw : ℕ → ℚ) (n e : ℕ) :
    (l1 < 0 → ∃ msg, monoL1 l1 ((List.range n).map fun i => ⟨fbw i, if i = e then 1 else 0⟩) = .error msg) ∧
    (0 ≤ l1 → ∃ r, monoL1 l1 ((List.range n).map fun i => ⟨fbw i, if i = e then 1 else 0⟩) = .ok r ∧
      r.v = l1 * ((List.range n).map fbw).sum ∧ (e < n → r.d = l1)) := by
  unfold monoL1
  refine ⟨fun h => ⟨_, if_pos (not_le.mpr h)⟩, fun h => ⟨_, if_neg (not_not.mpr h), ?_, fun he => ?_⟩⟩
  · simp only [mul, const, sumD_v, List.map_map]
    rw [mul_comm]
    rfl
  · have : (((List.range n).map fun i => if i = e then (1 : ℚ) else 0)).sum = 1 := by
      clear h
      induction n with
      | zero => omega
      | succ n ih =>
        rw [List.range_succ, List.map_append, List.sum_append]
        by_cases hn : e = n
        · subst hn
          have : ((List.range e).map fun i => if i = e then (1 : ℚ) else 0) = (List.range e).map fun _ => 0 :=
            List.map_congr_left fun i hi => by rw [if_neg (List.mem_range.mp hi).ne]
          rw [this]
          simp
        · rw [ih (by omega)]
          simp [Ne.symm hn]
    simp only [mul, const, sumD_d, List.map_map, mul_zero, add_zero, Function.comp_def, this, one_mul]

-- a dense layer with a zero weight behind a quantizer, four weights of 3, 3, 0, 3 bits, inputs of 4 bits, `beta` 1/10: the bitwidth of
-- the zero weight is not pulled
example : let L := { exDense 0 [2] true with taps := denseTaps 2 2, kernel := fun j => if j = 2 then 0 else 3 / 4 }
    let q : QSite := ⟨⟨0, true, some (-10, 20), fun _ => 1, 7 / 10⟩, [2], [2]⟩
    let s : QState := ⟨fun _ => 1, fun _ => ((-2 : ℚ) : WithTop ℚ), fun _ => ((3 / 2 : ℚ) : WithBot ℚ)⟩
    L.kernelBitsTrain 4 = [3, 3, 0, 3] ∧ q.actBitsTrain false s = [4, 4] ∧ Spec.strength L (.dense 4) (1 / 10) = 1 / 10 ∧
    (List.range 4).map (dKernel L (.dense 4) (1 / 10) q false s id 1 (1 / 2)) = [1 / 5, 1 / 5, 0, 1 / 5] ∧
    (List.range 4).map (dWeight L (.dense 4) (1 / 10) q false s 1 (1 / 2)) = [0, 0, 0, 0] ∧
    (List.range 2).map (dAct L (.dense 4) (1 / 10) q false s 1 (1 / 2)) = [3 / 5, 3 / 10] := by decide +kernel

end HGQ
