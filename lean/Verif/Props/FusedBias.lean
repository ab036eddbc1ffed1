import Verif.Props.FusedNet

/-!
C114, in general: which network a deployed model with fused batch normalisation approximates, whatever the bias and the settings.
-/

namespace HGQ
open _root_.Spec

/-- The network a layer stands for. With `scale`: batch normalisation of the values without the bias, then the bias. Without: the values minus
`moving_mean / sqrt(1 + epsilon)`, plus `bn_beta` and the bias. -/
def TNode.late : TNode → LateLayer
  | .plain nd => .plain nd.float
  | .dropout rate => .plain (TNode.dropout rate).infer.float
  | .fused F => .late (prodL F.bn.outShape) F.bn.taps F.bn.kernel F.bn.chan
      (if F.bn.scale then ⟨F.bn.gamma, F.bn.beta, F.bn.movingMean, F.bn.movingVar, F.bn.eps, F.bn.rsqrt⟩
       else ⟨fun _ => 1, F.bn.beta, fun c => F.bn.movingMean c * F.bn.rsqrt (1 + F.bn.eps), fun _ => 1, 0, fun _ => 1⟩)
      (if F.bn.useBias then F.bn.bias else fun _ => 0) F.reluAct

/-- the whole network -/
def TrainNet.late (net : TrainNet) : List (LateLayer × List ℕ) := net.map fun ti => (ti.1.late, ti.2)

/-- kernel entries belong to the channel of the output they are used for -/
def FusedLayer.Channels (F : FusedLayer) : Prop := ∀ p < prodL F.bn.outShape, ∀ ij ∈ F.bn.taps p, F.bn.kchan ij.2 = F.bn.chan p

theorem FusedLayer.late_eval {F : FusedLayer} (hb : F.bn.Built) (h : F.Channels) (ins : List (List ℚ)) :
    (Node.linear F.infer).float.eval ins = (TNode.fused F).late.eval ins := by
  change (List.range (prodL F.bn.outShape)).map _ = (List.range (prodL F.bn.outShape)).map _
  apply List.map_congr_left
  intro p hp
  have hp := List.mem_range.mp hp
  have key : ((F.bn.taps p).map fun ij => (ins.headD []).getD ij.1 0 * F.bn.fusedKernel ij.2).sum +
      (match (if F.bn.useBias then some F.bn.fusedBias else none) with | none => 0 | some b => b (F.infer.chan p)) =
      Norm.apply (if F.bn.scale then ⟨F.bn.gamma, F.bn.beta, F.bn.movingMean, F.bn.movingVar, F.bn.eps, F.bn.rsqrt⟩
        else ⟨fun _ => 1, F.bn.beta, fun c => F.bn.movingMean c * F.bn.rsqrt (1 + F.bn.eps), fun _ => 1, 0, fun _ => 1⟩) (F.bn.chan p)
        ((F.bn.taps p).map fun ij => (ins.headD []).getD ij.1 0 * F.bn.kernel ij.2).sum +
          (if F.bn.useBias then F.bn.bias else fun _ => 0) (F.bn.chan p) := by
    have hch : F.infer.chan p = F.bn.chan p := rfl
    have hbias : (match (if F.bn.useBias then some F.bn.fusedBias else none) with | none => 0 | some b => b (F.infer.chan p)) =
        (if F.bn.useBias then F.bn.bias else fun _ => 0) (F.bn.chan p) -
          F.bn.movingMean (F.bn.chan p) * (F.bn.gamma (F.bn.chan p) * F.bn.rsqrt (F.bn.movingVar (F.bn.chan p) + F.bn.eps)) +
          F.bn.beta (F.bn.chan p) := by
      cases hu : F.bn.useBias with
      | false =>
        have hc : F.bn.center = false := by
          cases hc : F.bn.center with
          | false => rfl
          | true => rw [hb.bias hc] at hu; cases hu
        obtain ⟨e1, e2⟩ := hb.center hc
        simp [e1, e2]
      | true =>
        simp only [if_true, hch]
        unfold BNLayer.fusedBias
        cases hc : F.bn.center with
        | false =>
          obtain ⟨e1, e2⟩ := hb.center hc
          simp [e1, e2]
        | true => simp
    rw [hbias]
    unfold Norm.apply
    cases hs : F.bn.scale with
    | true =>
      have h1 := lin_fused F.bn hs (ins.headD []) p (F.bn.chan p) (h p hp)
      unfold BNLayer.lin at h1
      rw [h1]
      simp only [if_true]
      ring
    | false =>
      obtain ⟨e1, e2⟩ := hb.scale hs
      have hk : F.bn.fusedKernel = F.bn.kernel := by funext j; unfold BNLayer.fusedKernel; simp [hs]
      simp only [hk, e1, e2, Bool.false_eq_true, if_false]
      ring
  change (if F.reluAct then max _ 0 else _) = if F.reluAct then max _ 0 else _
  exact congrArg (fun z : ℚ => if F.reluAct then max z 0 else z) key

theorem TrainNet.late_eval : ∀ {net : TrainNet}, (∀ ti ∈ net, ti.1.Good) → (∀ ti ∈ net, ∀ F, ti.1 = .fused F → F.Channels) →
    ∀ env, net.infer.float.eval env = LateNet.eval net.late env
  | [], _, _, _ => rfl
  | (t, ins) :: rest, hg, hn, env => by
    have ih := TrainNet.late_eval (net := rest) (fun x hx => hg x (by simp [hx])) fun x hx => hn x (by simp [hx])
    change FNet.eval (TrainNet.infer rest).float (env ++ [t.infer.float.eval _]) = LateNet.eval (TrainNet.late rest) (env ++ [t.late.eval _])
    rw [ih]
    congr 2
    cases t with
    | plain nd => rfl
    | dropout rate => rfl
    | fused F => rw [← FusedLayer.late_eval ((hg (.fused F, ins) (by simp)).built F rfl) (hn (.fused F, ins) (by simp) F rfl)]; rfl

/-- **C114**, in general: after any training, for any bias and any setting of `center` and `scale`, the deployed model differs on the
calibration data by at most `K * 2^-F` from the network without quantizers in which each fused layer normalises the values without bias and adds
the bias afterwards (without `scale`: subtracts the mean times `rsqrt(1 + epsilon)`). -/
theorem C114_bias_added_late (fnet : FNet) (ht : fnet.Tame) (B : ℚ) (hB : 0 ≤ B) : ∃ K : ℚ, ∀ (m : TrainModel), m.Good →
    ∀ (ops : List TrainOp) (p : Pass) (m' : TrainModel), m.run (ops ++ [.forward p]) = .ok m' → m'.net.infer.float = fnet →
      (∀ ti ∈ m'.net, ∀ F, ti.1 = .fused F → F.Channels) → ∀ (F : ℕ), m'.net.infer.All (Node.Fine F) m'.states →
      ∀ (bsz : ℕ) (data : List (List (List ℚ))) (aggressive : Bool), (∀ x ∈ data, ∀ t ∈ x, Within B t) → 0 < bsz → data ≠ [] →
        ∃ ss' preds, m'.net.infer.trace m'.states bsz data = .ok (ss', preds) ∧ (m'.net.infer.All Bounded ss' →
          ∃ pm, m'.net.infer.toProxy (proxySat aggressive) ss' = .ok pm ∧
            ∀ x ∈ data, List.Forall₂ (Close (K / 2 ^ F)) (pm.eval x) (LateNet.eval m'.net.late x)) := by
  obtain ⟨K, hK⟩ := C108_deployed fnet ht B hB
  refine ⟨K, fun m hm ops p m' hr hf hn F hF bsz data aggressive hx hb hne => ?_⟩
  obtain ⟨m1, h1, h2, h3⟩ := TrainModel.run_good hm (ops ++ [.forward p])
  rw [hr] at h1
  cases h1
  obtain ⟨ss', preds, t1, t2⟩ := hK m'.net.infer hf F m'.states (h3 ⟨ops, p, rfl⟩) hF bsz data aggressive hx hb hne
  refine ⟨ss', preds, t1, fun hbd => ?_⟩
  obtain ⟨pm, p1, p2⟩ := t2 hbd
  refine ⟨pm, p1, fun x hxd => ?_⟩
  rw [← TrainNet.late_eval h2.layers hn, hf]
  exact p2 x hxd

/-- **C114**, exactly: a fused layer with a bias computes, without quantizers, the batch normalisation of the values with the bias on every
input if and only if, for every output channel, the bias is 0 or `bn_gamma * rsqrt(moving_variance + epsilon)` is 1. -/
theorem C114_layer_iff {F : FusedLayer} (hb : F.bn.Built) (h : F.Channels) (hs : F.bn.scale = true) (hu : F.bn.useBias = true)
    (hr : F.reluAct = false) :
    (∀ ins, (Node.linear F.infer).float.eval ins = (List.range (prodL F.bn.outShape)).map fun p =>
      Norm.apply ⟨F.bn.gamma, F.bn.beta, F.bn.movingMean, F.bn.movingVar, F.bn.eps, F.bn.rsqrt⟩ (F.bn.chan p)
        (((F.bn.taps p).map fun ij => (ins.headD []).getD ij.1 0 * F.bn.kernel ij.2).sum + F.bn.bias (F.bn.chan p))) ↔
    ∀ p < prodL F.bn.outShape, F.bn.bias (F.bn.chan p) = 0 ∨
      F.bn.gamma (F.bn.chan p) * F.bn.rsqrt (F.bn.movingVar (F.bn.chan p) + F.bn.eps) = 1 := by
  have e : ∀ ins, (Node.linear F.infer).float.eval ins = (List.range (prodL F.bn.outShape)).map fun p =>
      Norm.apply ⟨F.bn.gamma, F.bn.beta, F.bn.movingMean, F.bn.movingVar, F.bn.eps, F.bn.rsqrt⟩ (F.bn.chan p)
        ((F.bn.taps p).map fun ij => (ins.headD []).getD ij.1 0 * F.bn.kernel ij.2).sum + F.bn.bias (F.bn.chan p) := by
    intro ins
    rw [FusedLayer.late_eval hb h]
    simp only [TNode.late, LateLayer.eval, hs, hu, hr, if_true, Bool.false_eq_true, if_false]
  have point : ∀ (b sc g : ℚ), (∀ y m β : ℚ, g * (y - m) * sc + β + b = g * (y + b - m) * sc + β) ↔ (b = 0 ∨ g * sc = 1) := by
    intro b sc g
    constructor
    · intro hh
      have := hh 0 0 0
      by_cases hb0 : b = 0
      · exact .inl hb0
      · right
        have : (g * sc - 1) * b = 0 := by linarith
        rcases mul_eq_zero.mp this with h | h
        · linarith
        · exact absurd h hb0
    · rintro (rfl | hh) y m β
      · ring
      · linear_combination (-b) * hh
  constructor
  · intro hh p hp
    have := hh []
    rw [e] at this
    have := List.map_inj_left.mp this p (List.mem_range.mpr hp)
    unfold Norm.apply at this
    refine (point _ _ _).mp fun y m β => ?_
    dsimp only at this
    linear_combination this
  · intro hh ins
    rw [e]
    refine List.map_congr_left fun p hp => ?_
    unfold Norm.apply
    exact (point _ _ _).mpr (hh p (List.mem_range.mp hp)) _ _ _

/-- the layer of the examples with the bias 1, mean 3 and variance 4 -/
def lateLayer : FusedLayer := { fuLayer with bn := { fuLayer.bn with bias := fun _ => 1, movingMean := fun _ => 3, movingVar := fun _ => 4 } }

theorem lateLayer_channels : lateLayer.Channels := fun p hp ij _ => by
  have : p = 0 := by have : p < 1 := hp; omega
  subst this
  rfl

-- the hypotheses of C114_layer_iff are met, and the condition fails: bias 1, factor 1/2; the input 4 gives (4 - 3)/2 + 1 instead of (4 + 1 - 3)/2
example : ¬ ∀ p < prodL lateLayer.bn.outShape, lateLayer.bn.bias (lateLayer.bn.chan p) = 0 ∨
    lateLayer.bn.gamma (lateLayer.bn.chan p) * lateLayer.bn.rsqrt (lateLayer.bn.movingVar (lateLayer.bn.chan p) + lateLayer.bn.eps) = 1 := fun h => by
  have := (C114_layer_iff (F := lateLayer) ⟨fun _ => rfl, fun h => (by cases h), fun h => by cases h⟩ lateLayer_channels rfl rfl rfl).mpr h [[4]]
  revert this
  decide +kernel

example : (TNode.fused lateLayer).late.eval [[4]] = [3 / 2] := by decide +kernel

-- the hypotheses of C114_bias_added_late: one pass with momentum 1, so that mean 3 and variance 4 stay
example : ∃ K : ℚ, ∀ (m' : TrainModel), (fuModel { lateLayer with bn := { lateLayer.bn with momentum := 1 } }).run ([] ++ [.forward (fuPass 0 4)]) = .ok m' →
    m'.net.infer.float = [(.ident 1, [0]), (.linear 1 (fun _ => [(0, 0)]) (fun _ => 1 / 2) (fun _ => -1 / 2) false, [1])] →
    (∀ ti ∈ m'.net, ∀ F, ti.1 = .fused F → F.Channels) → m'.net.infer.All (Node.Fine 2) m'.states →
      ∃ ss' preds, m'.net.infer.trace m'.states 1 [[[1]], [[3]]] = .ok (ss', preds) ∧ (m'.net.infer.All Bounded ss' →
        ∃ pm, m'.net.infer.toProxy (proxySat true) ss' = .ok pm ∧
          ∀ x ∈ [[[(1 : ℚ)]], [[3]]], List.Forall₂ (Close (K / 2 ^ 2)) (pm.eval x) (LateNet.eval m'.net.late x)) := by
  obtain ⟨K, h⟩ := C114_bias_added_late [(.ident 1, [0]), (.linear 1 (fun _ => [(0, 0)]) (fun _ => 1 / 2) (fun _ => -1 / 2) false, [1])]
    (by intro l hl; simp only [List.mem_cons, List.not_mem_nil, or_false] at hl; rcases hl with rfl | rfl <;> trivial) 4 (by norm_num)
  refine ⟨K, fun m' h1 h2 h3 h4 => h (fuModel { lateLayer with bn := { lateLayer.bn with momentum := 1 } })
    (fuLayer_good _ rfl rfl rfl rfl rfl ⟨fun _ => rfl, fun h => (by cases h), fun h => by cases h⟩) _ _ m' h1 h2 h3 2 h4 1 _ true ?_
    (by norm_num) (by simp)⟩
  intro x hx t ht p
  simp only [List.mem_cons, List.not_mem_nil, or_false] at hx
  rcases hx with rfl | rfl <;> (simp only [List.mem_cons, List.not_mem_nil, or_false] at ht; subst ht; rcases p with _ | p <;> norm_num)

-- the hypotheses on `m'` are met: the pass runs, fused kernel 1/2, fused bias 1 - 3/2, bitwidths 3 and 2
example : (match (fuModel { lateLayer with bn := { lateLayer.bn with momentum := 1 } }).run ([] ++ [.forward (fuPass 0 4)]) with
    | .ok m' => (m'.net.map fun ti => match ti.1 with
        | .fused F => [F.infer.kernel 0, (F.infer.bias.getD fun _ => 0) 0, F.kq.clip (F.kfbw 0)]
        | _ => []) ++ [m'.states.map fun s => s.fbw 0]
    | .error _ => []) = [([] : List ℚ), [1 / 2, -1 / 2, 3], [2, 2]] := by decide +kernel

end HGQ
