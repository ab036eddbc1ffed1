import Verif.Lemmas.FusedNet

/-!
C113, C114, C115: models with fused batch normalisation in training and after it.
-/

namespace HGQ
open _root_.Spec

/-! ### C113 -/

theorem TNode.forward_infer (t : TNode) (s : QState) (record : Bool) (nz : Noise) (insB : List (List (List ℚ))) :
    t.forward s false record nz insB = (do
      let (s', outs) ← t.infer.callT s false record nz insB
      return (t, s', outs)) := by
  cases t <;> rfl

/-- calling the model with `training=False` is calling its inference model -/
theorem TrainNet.forward_infer (record : Bool) : ∀ (net : TrainNet) (ss ss' : List QState) (nz : ℕ → Noise) (envs envs' : List (List (List ℚ))),
    net.infer.callT false record ss nz envs = .ok (ss', envs') → net.forward false record ss nz envs = .ok (net, ss', envs')
  | [], _, _, _, _, _, h => by cases h; rfl
  | (t, ins) :: rest, s :: ss, ss', nz, envs, envs', h => by
    unfold TrainNet.infer at h
    rw [List.map_cons] at h
    unfold Net.callT at h
    unfold TrainNet.forward
    rw [TNode.forward_infer]
    simp only [bind, Except.bind] at h ⊢
    cases h1 : t.infer.callT s false (false || record) (nz 0) (envs.map (gather · ins)) with
    | error e => rw [h1] at h; cases h
    | ok r =>
      obtain ⟨s1, outs⟩ := r
      rw [h1] at h
      simp only [pure, Except.pure] at h ⊢
      cases h2 : Net.callT false record (rest.map fun ti => (ti.1.infer, ti.2)) ss (fun i => nz (i + 1))
          (List.zipWith (fun env o => env ++ [o]) envs outs) with
      | error e => rw [h2] at h; cases h
      | ok r2 =>
        obtain ⟨ss2, outs2⟩ := r2
        rw [h2] at h
        rw [TrainNet.forward_infer record rest ss ss2 _ _ _ h2]
        cases h
        rfl
  | _ :: _, [], _, _, _, _, h => by cases h

/-- **C113**: take a model with any number of fused batch-normalisation and dropout layers, train it by any sequence of forward passes (in training, with
any random numbers, or not) and assignments to its variables, the last step being a forward pass. This succeeds; and after it,
`trace_minmax` on any dataset returns the model's predictions, and the proxy made by `to_proxy_model` computes on every sample of the
dataset exactly the tensors the trained model itself computes with `training=False`. -/
theorem C113_deployed_after_training (m : TrainModel) (hm : m.Good) (ops : List TrainOp) (p : Pass) (bsz : ℕ) (data : List (List (List ℚ)))
    (aggressive : Bool) (hbsz : 0 < bsz) (hne : data ≠ []) :
    ∃ m', m.run (ops ++ [.forward p]) = .ok m' ∧
      ∃ ss' preds, m'.net.infer.trace m'.states bsz data = .ok (ss', preds) ∧
        (m'.net.infer.All Bounded ss' → ∃ pm, m'.net.infer.toProxy (proxySat aggressive) ss' = .ok pm ∧ preds = data.map pm.eval ∧
          ∀ x ∈ data, ∀ nz, m'.net.forward false false ss' nz [x] = .ok (m'.net, ss', [pm.eval x])) := by
  obtain ⟨m', h1, h2, h3⟩ := TrainModel.run_good hm (ops ++ [.forward p])
  have hw := h3 ⟨ops, p, rfl⟩
  obtain ⟨ss', g1, -, g3, -⟩ := trace_spec m'.net.infer m'.states bsz data hw hbsz
  obtain ⟨ss'', preds, t1, -, t3⟩ := C26_bit_accurate m'.net.infer m'.states bsz data aggressive hw hbsz hne
  rw [t1] at g1
  cases g1
  refine ⟨m', h1, _, _, t1, fun hb => ?_⟩
  obtain ⟨pm, p1, p2, p3⟩ := t3 hb
  refine ⟨pm, p1, p2, fun x hx nz => TrainNet.forward_infer false _ _ _ _ _ _ ?_⟩
  rw [C109_inference]
  have hc : m'.net.infer.All Node.Clipped ss' := all_imp (fun _ _ h => h.clip) g3
  obtain ⟨s1, c1, -, c3, -⟩ := m'.net.infer.call_spec false ss' [x] hc
  have hp := p3 x hx
  rw [predict_eq _ _ hc] at hp
  rw [c1, c3 rfl]
  simp only [List.map_cons, List.map_nil]
  rw [Except.ok.inj hp]

/-! ### C114 -/

/-- the same model without quantizers and with batch normalisation as a step of its own -/
def TNode.reference : TNode → RLayer
  | .plain nd => .plain nd.float
  | .dropout rate => .plain (TNode.dropout rate).infer.float
  | .fused F => .normed (prodL F.bn.outShape) F.bn.taps F.bn.kernel F.bn.chan ⟨F.bn.gamma, F.bn.beta, F.bn.movingMean, F.bn.movingVar, F.bn.eps, F.bn.rsqrt⟩
      F.reluAct

def TrainNet.reference (net : TrainNet) : RNet := net.map fun ti => (ti.1.reference, ti.2)

/-- `scale` is on, kernel entries belong to the channel of the output they are used for, and there is no bias or it is 0 -/
structure FusedLayer.NoBias (F : FusedLayer) : Prop where
  scale : F.bn.scale = true
  chan : ∀ p < prodL F.bn.outShape, ∀ ij ∈ F.bn.taps p, F.bn.kchan ij.2 = F.bn.chan p
  bias : ∀ p < prodL F.bn.outShape, F.bn.useBias = true → F.bn.bias (F.bn.chan p) = 0

theorem FusedLayer.float_eval {F : FusedLayer} (hb : F.bn.Built) (h : F.NoBias) (ins : List (List ℚ)) :
    (Node.linear F.infer).float.eval ins = (TNode.fused F).reference.eval ins := by
  change (List.range (prodL F.bn.outShape)).map _ = (List.range (prodL F.bn.outShape)).map _
  apply List.map_congr_left
  intro p hp
  have hp := List.mem_range.mp hp
  have key : ((F.bn.taps p).map fun ij => (ins.headD []).getD ij.1 0 * F.bn.fusedKernel ij.2).sum +
      (match (if F.bn.useBias then some F.bn.fusedBias else none) with | none => 0 | some b => b (F.infer.chan p)) =
      Norm.apply ⟨F.bn.gamma, F.bn.beta, F.bn.movingMean, F.bn.movingVar, F.bn.eps, F.bn.rsqrt⟩ (F.bn.chan p)
        ((F.bn.taps p).map fun ij => (ins.headD []).getD ij.1 0 * F.bn.kernel ij.2).sum := by
    have h1 := lin_fused F.bn h.scale (ins.headD []) p (F.bn.chan p) (h.chan p hp)
    unfold BNLayer.lin at h1
    rw [h1]
    have hch : F.infer.chan p = F.bn.chan p := rfl
    unfold Norm.apply
    cases hu : F.bn.useBias with
    | false =>
      have hc : F.bn.center = false := by
        cases hc : F.bn.center with
        | false => rfl
        | true => rw [hb.bias hc] at hu; cases hu
      obtain ⟨e1, e2⟩ := hb.center hc
      simp only [e1, e2, Bool.false_eq_true, if_false]
      ring
    | true =>
      have hb0 := h.bias p hp hu
      simp only [if_true, hch]
      unfold BNLayer.fusedBias
      cases hc : F.bn.center with
      | false =>
        obtain ⟨e1, e2⟩ := hb.center hc
        simp only [e1, e2, hb0, Bool.not_false, if_true]
        ring
      | true =>
        simp only [hb0, Bool.not_true, Bool.false_eq_true, if_false]
        ring
  change (if F.reluAct then max _ 0 else _) = if F.reluAct then max _ 0 else _
  exact congrArg (fun z : ℚ => if F.reluAct then max z 0 else z) key

theorem TrainNet.float_eval : ∀ {net : TrainNet}, (∀ ti ∈ net, ti.1.Good) → (∀ ti ∈ net, ∀ F, ti.1 = .fused F → F.NoBias) →
    ∀ env, net.infer.float.eval env = net.reference.eval env
  | [], _, _, _ => rfl
  | (t, ins) :: rest, hg, hn, env => by
    have ih := TrainNet.float_eval (net := rest) (fun x hx => hg x (by simp [hx])) fun x hx => hn x (by simp [hx])
    change FNet.eval (TrainNet.infer rest).float (env ++ [t.infer.float.eval _]) = RNet.eval (TrainNet.reference rest) (env ++ [t.reference.eval _])
    rw [ih]
    congr 2
    cases t with
    | plain nd => rfl
    | dropout rate => rfl
    | fused F => rw [← FusedLayer.float_eval ((hg (.fused F, ins) (by simp)).built F rfl) (hn (.fused F, ins) (by simp) F rfl)]; rfl

/-- **C114** (partial): after any training, if the fused layers have `scale` and no bias (or one that is 0), the deployed model differs on the
calibration data by at most `K * 2^-F` from the network that has no quantizers and normalises with the moving statistics after each
convolution or dense layer; all bitwidths being at least `F`. `K` depends only on the network without quantizers (fused kernels) and the
bound of the inputs. Missing: a bias different from 0 and `scale=False`, where the fused layer is not batch normalisation
(`C64_bias_fails`, `C64_gap`, `C114_no_scale_fails`). -/
theorem C114_deployed_is_batch_norm_partial (fnet : FNet) (ht : fnet.Tame) (B : ℚ) (hB : 0 ≤ B) : ∃ K : ℚ, ∀ (m : TrainModel), m.Good →
    ∀ (ops : List TrainOp) (p : Pass) (m' : TrainModel), m.run (ops ++ [.forward p]) = .ok m' → m'.net.infer.float = fnet →
      (∀ ti ∈ m'.net, ∀ F, ti.1 = .fused F → F.NoBias) → ∀ (F : ℕ), m'.net.infer.All (Node.Fine F) m'.states →
      ∀ (bsz : ℕ) (data : List (List (List ℚ))) (aggressive : Bool), (∀ x ∈ data, ∀ t ∈ x, Within B t) → 0 < bsz → data ≠ [] →
        ∃ ss' preds, m'.net.infer.trace m'.states bsz data = .ok (ss', preds) ∧ (m'.net.infer.All Bounded ss' →
          ∃ pm, m'.net.infer.toProxy (proxySat aggressive) ss' = .ok pm ∧
            ∀ x ∈ data, List.Forall₂ (Close (K / 2 ^ F)) (pm.eval x) (m'.net.reference.eval x)) := by
  obtain ⟨K, hK⟩ := C108_deployed fnet ht B hB
  refine ⟨K, fun m hm ops p m' hr hf hn F hF bsz data aggressive hx hb hne => ?_⟩
  obtain ⟨m1, h1, h2, h3⟩ := TrainModel.run_good hm (ops ++ [.forward p])
  rw [hr] at h1
  cases h1
  obtain ⟨ss', preds, t1, t2⟩ := hK m'.net.infer hf F m'.states (h3 ⟨ops, p, rfl⟩) hF bsz data aggressive hx hb hne
  refine ⟨ss', preds, t1, fun hbd => ?_⟩
  obtain ⟨pm, p1, p2⟩ := t2 hbd
  refine ⟨pm, p1, fun x hxd => ?_⟩
  rw [← TrainNet.float_eval h2.layers hn, hf]
  exact p2 x hxd

/-! ### C115 -/

/-- In this pass the layer sees a batch whose statistics are the moving statistics; `bn_beta` is 0 and there is a bias exactly if `center`;
the quantizers are deterministic and channels located consistently. -/
structure FusedLayer.Settled (F : FusedLayer) (nz : Noise) (insB : List (List (List ℚ))) : Prop where
  flags : F.bn.center = F.bn.useBias
  scale : F.bn.center = true → F.bn.scale = true
  loc : F.jitLoc = F.bn.chLoc
  kq : F.kq.Deterministic
  paq : F.paq.Deterministic
  stats : ∀ p < prodL F.bn.outShape, F.bn.StatsAgree (F.statKernel nz) (insB.map (·.headD [])) (F.bn.chan p)
  chan : ∀ p < prodL F.bn.outShape, ∀ ij ∈ F.bn.taps p, F.bn.kchan ij.2 = F.bn.chan p
  beta : ∀ p < prodL F.bn.outShape, F.bn.center = true → F.bn.beta (F.bn.chan p) = 0

theorem forward_det {c : QConf} (h : c.Deterministic) (f x n : ℚ) : c.forward f x n true = .ok (evalQ c.strategy f x) :=
  by rw [C12_train_equals_inference c h.1 h.2 f x n n, C11_inference_total]

/-- two layers that differ only in weights and biases that are not used -/
structure LinLayer.Like (L L' : LinLayer) : Prop where
  rest : L' = { L with kernel := L'.kernel, bias := L'.bias }
  kernel : ∀ p < prodL L.outShape, ∀ ij ∈ L.taps p, L'.kernel ij.2 = L.kernel ij.2
  bias : (L.bias = none ∧ L'.bias = none) ∨ ∃ b b', L.bias = some b ∧ L'.bias = some b' ∧ ∀ p < prodL L.outShape, b' (L.chan p) = b (L.chan p)

theorem LinLayer.Like.preact {L L' : LinLayer} (h : L.Like L') {k k' b b' : ℕ → ℚ} (x : List ℚ) {p : ℕ}
    (hk : ∀ ij ∈ L.taps p, k' ij.2 = k ij.2) (hb : b' (L.chan p) = b (L.chan p)) : L'.preact k' b' x p = L.preact k b x p := by
  rw [h.rest]
  change ((L.taps p).map fun ij => x.getD ij.1 0 * k' ij.2).sum + b' (L.chan p) = ((L.taps p).map fun ij => x.getD ij.1 0 * k ij.2).sum + b (L.chan p)
  rw [hb, List.map_congr_left fun ij hij => by rw [hk ij hij]]

theorem LinLayer.Like.qkernel {L L' : LinLayer} (h : L.Like L') {p : ℕ} (hp : p < prodL L.outShape) : ∀ ij ∈ L.taps p,
    L'.qkernel ij.2 = L.qkernel ij.2 := by
  intro ij hij
  have := h.kernel p hp ij hij
  rw [h.rest] at this ⊢
  change evalQ _ _ _ = evalQ _ _ _
  rw [this]

theorem LinLayer.Like.pre {L L' : LinLayer} (h : L.Like L') (fbw : ℕ → ℚ) (x : List ℚ) {p : ℕ} (hp : p < prodL L.outShape) :
    L'.pre fbw x p = L.pre fbw x p := by
  refine h.preact x (h.qkernel hp) ?_
  unfold LinLayer.jitBias
  rcases h.bias with ⟨h1, h2⟩ | ⟨b, b', h1, h2, h3⟩
  · rw [h1, h2]
  · rw [h1, h2, h.rest]
    change evalQ _ _ _ = evalQ _ _ _
    rw [h3 p hp]

theorem LinLayer.Like.klayer {L L' : LinLayer} (h : L.Like L') (s : QState) (x : List ℚ) {p : ℕ} (hp : p < prodL L.outShape) :
    L'.klayer s x p = L.klayer s x p := by
  refine h.preact x (h.qkernel hp) ?_
  unfold LinLayer.fusedQBias
  rcases h.bias with ⟨h1, h2⟩ | ⟨b, b', h1, h2, h3⟩
  · rw [h1, h2]
  · have hcov : L'.canBiasCover = L.canBiasCover := by
      unfold LinLayer.canBiasCover
      rw [h1, h2, h.rest]
      rfl
    rw [h1, h2, hcov]
    simp only
    have hq : L'.qbias L'.chLoc s.fbw b' (L.chan p) = L.qbias L.chLoc s.fbw b (L.chan p) := by
      rw [h.rest]
      change evalQ _ _ _ = evalQ _ _ _
      rw [h3 p hp]
    rw [hq, show L'.paq = L.paq by rw [h.rest], show L'.qShape = L.qShape by rw [h.rest], show L'.chLoc = L.chLoc by rw [h.rest],
      show L'.biasMask s (L.chan p) = L.biasMask s (L.chan p) by rw [h.rest]; rfl]

theorem LinLayer.Like.call {L L' : LinLayer} (h : L.Like L') (s : QState) (record : Bool) (insB : List (List (List ℚ))) :
    (Node.linear L').call s record insB = (Node.linear L).call s record insB := by
  have hp : ∀ ins, (Node.linear L').pre s.fbw ins = (Node.linear L).pre s.fbw ins := by
    intro ins
    change (List.range (prodL L'.outShape)).map _ = (List.range (prodL L.outShape)).map _
    rw [show L'.outShape = L.outShape by rw [h.rest]]
    apply List.map_congr_left
    intro p hp
    exact h.pre s.fbw _ (List.mem_range.mp hp)
  unfold Node.call
  simp only [Node.site]
  rw [show insB.map ((Node.linear L').pre s.fbw) = insB.map ((Node.linear L).pre s.fbw) from List.map_congr_left fun ins _ => hp ins]
  rw [h.rest]
  rfl

theorem LinLayer.Like.toProxy {L L' : LinLayer} (h : L.Like L') (s : QState) (S : Sat) :
    (Node.linear L').toProxy s S = (Node.linear L).toProxy s S := by
  unfold Node.toProxy
  simp only [Node.site]
  rw [show L'.outShape = L.outShape by rw [h.rest], show L'.qShape = L.qShape by rw [h.rest]]
  cases s.getBitsExact (prodL L.qShape) false with
  | error e => rfl
  | ok b =>
    simp only [Except.ok.injEq]
    funext ins
    apply List.map_congr_left
    intro p hp
    change L'.proxyOut s S _ p = L.proxyOut s S _ p
    have hk := h.klayer s (ins.headD []) (List.mem_range.mp hp)
    have hcov : L'.canBiasCover = L.canBiasCover := by
      unfold LinLayer.canBiasCover
      rcases h.bias with ⟨h1, h2⟩ | ⟨b, b', h1, h2, h3⟩
      · rw [h1, h2, h.rest]
      · rw [h1, h2, h.rest]; rfl
    unfold LinLayer.proxyOut
    rw [hk, hcov, show L'.paq = L.paq by rw [h.rest], show L'.reluAct = L.reluAct by rw [h.rest],
      show L'.reluKif s = L.reluKif s by rw [h.rest]; rfl, show L'.bitsAt s = L.bitsAt s by rw [h.rest]; rfl]

theorem FusedLayer.trainLin_like {F : FusedLayer} {nz : Noise} {insB : List (List (List ℚ))} (h : F.Settled nz insB) :
    F.infer.Like (F.trainLin (F.bn.train (F.statKernel nz) (insB.map (·.headD [])))) where
  rest := by simp only [FusedLayer.trainLin, FusedLayer.infer, h.loc]
  kernel := fun p hp ij hij => C28_kernel F.bn _ _ ij.2 (by rw [h.chan p hp ij hij]; exact h.stats p hp)
  bias := by
    cases hc : F.bn.center with
    | false =>
      refine .inl ⟨by simp [FusedLayer.infer, ← h.flags, hc], ?_⟩
      change (F.bn.train _ _).bias = none
      unfold BNLayer.train
      simp [hc]
    | true =>
      have hu : F.bn.useBias = true := by rw [← h.flags, hc]
      refine .inr ⟨F.bn.fusedBias, _, by simp [FusedLayer.infer, hu], BNLayer.train_bias _ _ _ hc, fun p hp => ?_⟩
      obtain ⟨tb, e1, e2⟩ := C28_bias_partial F.bn (F.statKernel nz) (insB.map (·.headD [])) (F.bn.chan p) (h.stats p hp) hc (h.scale hc)
        hu (h.beta p hp hc)
      rw [BNLayer.train_bias _ _ _ hc] at e1
      have e1 := Option.some.inj e1
      rw [← e1] at e2
      unfold BNLayer.inferBias at e2
      rw [if_pos hu] at e2
      exact e2

/-- the layer after the pass -/
def FusedLayer.afterPass (F : FusedLayer) (nz : Noise) (insB : List (List (List ℚ))) : FusedLayer :=
  { F with bn := (F.bn.train (F.statKernel nz) (insB.map (·.headD []))).layer }

theorem FusedLayer.afterPass_stats {F : FusedLayer} {nz : Noise} {insB : List (List (List ℚ))} (h : F.Settled nz insB) {p : ℕ}
    (hp : p < prodL F.bn.outShape) : (F.afterPass nz insB).bn.movingMean (F.bn.chan p) = F.bn.movingMean (F.bn.chan p) ∧
      (F.afterPass nz insB).bn.movingVar (F.bn.chan p) = F.bn.movingVar (F.bn.chan p) := by
  have hs := h.stats p hp
  have hm := hs.mean
  have hv := hs.var
  have hn := hs.nonempty
  unfold BNLayer.batchMean at hm
  rw [meanL_map_add hn] at hm
  unfold FusedLayer.afterPass BNLayer.train
  cases hc : F.bn.center <;> cases hsc : F.bn.scale
  · simp
  · have hv := hv hsc
    simp only [Bool.false_eq_true, if_false, if_true, true_and]
    rw [← hv]; ring
  · have := h.scale hc
    rw [hsc] at this; cases this
  · have hv := hv hsc
    have hm := hm hc
    rw [if_pos hsc] at hm
    simp only [if_true]
    rw [← hv, ← hm]
    constructor <;> ring

theorem FusedLayer.afterPass_like {F : FusedLayer} {nz : Noise} {insB : List (List (List ℚ))} (h : F.Settled nz insB) :
    F.infer.Like (F.afterPass nz insB).infer := by
  have st := fun p hp => FusedLayer.afterPass_stats h (p := p) hp
  obtain ⟨f1, f2, f3, f4, f5, f6, f7, f8, f9, f10, f11, f12⟩ : (F.afterPass nz insB).bn.outShape = F.bn.outShape ∧
      (F.afterPass nz insB).bn.chLoc = F.bn.chLoc ∧ (F.afterPass nz insB).bn.useBias = F.bn.useBias ∧
      (F.afterPass nz insB).bn.taps = F.bn.taps ∧ (F.afterPass nz insB).bn.kernel = F.bn.kernel ∧
      (F.afterPass nz insB).bn.bias = F.bn.bias ∧ (F.afterPass nz insB).bn.gamma = F.bn.gamma ∧
      (F.afterPass nz insB).bn.beta = F.bn.beta ∧ (F.afterPass nz insB).bn.kchan = F.bn.kchan ∧
      (F.afterPass nz insB).bn.eps = F.bn.eps ∧ (F.afterPass nz insB).bn.rsqrt = F.bn.rsqrt ∧
      ((F.afterPass nz insB).bn.center = F.bn.center ∧ (F.afterPass nz insB).bn.scale = F.bn.scale) := by
    unfold FusedLayer.afterPass BNLayer.train
    cases h1 : F.bn.center <;> cases h2 : F.bn.scale <;> simp [h1, h2]
  refine ⟨?_, fun p hp ij hij => ?_, ?_⟩
  · unfold FusedLayer.infer
    rw [f1, f2, f4]
    rfl
  · change (F.afterPass nz insB).bn.fusedKernel ij.2 = F.bn.fusedKernel ij.2
    unfold BNLayer.fusedKernel
    rw [f12.2, f5, f7, f9, f10, f11, h.chan p hp ij hij, (st p hp).2]
  · unfold FusedLayer.infer
    simp only
    rw [f3]
    cases F.bn.useBias with
    | false => exact .inl ⟨rfl, rfl⟩
    | true =>
      refine .inr ⟨_, _, rfl, rfl, fun p hp => ?_⟩
      change (F.afterPass nz insB).bn.fusedBias (F.bn.chan p) = F.bn.fusedBias (F.bn.chan p)
      unfold BNLayer.fusedBias
      rw [f12.1, f6, f7, f8, f10, f11, (st p hp).1, (st p hp).2]

theorem FusedLayer.trainPass_settled {F : FusedLayer} {nz : Noise} {insB : List (List (List ℚ))} (h : F.Settled nz insB) (s : QState) (record : Bool) :
    F.trainPass s record nz insB = (do
      let (s', outs) ← (Node.linear F.infer).call s record insB
      return (F.afterPass nz insB, s', outs)) := by
  unfold FusedLayer.trainPass
  simp only
  rw [Node.callT_eq (nd := .linear (F.trainLin _)) ⟨fun q hq => by cases hq; exact forward_det h.paq, fun L hL => by cases hL; exact forward_det h.kq⟩,
    (FusedLayer.trainLin_like h).call]
  rfl

/-- the layer is settled in this pass: a fused layer as above, dropout has rate 0, any other layer has deterministic quantizers -/
def TNode.Settled (nz : Noise) (insB : List (List (List ℚ))) : TNode → Prop
  | .plain nd => (∀ q, nd.site = some q → q.conf.Deterministic) ∧ ∀ L, nd = .linear L → L.kq.Deterministic
  | .fused F => F.Settled nz insB
  | .dropout rate => rate = 0 ∧ ∀ b p, 0 ≤ nz.out b p

/-- all layers are settled on the inputs that reach them in a training pass -/
def TrainNet.Settled : TrainNet → List QState → (ℕ → Noise) → List (List (List ℚ)) → Prop
  | (t, ins) :: rest, s :: ss, nz, envs => t.Settled (nz 0) (envs.map (gather · ins)) ∧
    ∀ t' s' outs, t.forward s true true (nz 0) (envs.map (gather · ins)) = .ok (t', s', outs) →
      TrainNet.Settled rest ss (fun i => nz (i + 1)) (List.zipWith (fun env o => env ++ [o]) envs outs)
  | _, _, _, _ => True

/-- the layer after a training pass -/
def TNode.afterPass (nz : Noise) (insB : List (List (List ℚ))) : TNode → TNode
  | .plain nd => .plain nd
  | .fused F => .fused (F.afterPass nz insB)
  | .dropout rate => .dropout rate

/-- dropout with rate 0 does nothing -/
theorem dropOut_zero {noise : ℕ → ℕ → ℚ} (h : ∀ b p, 0 ≤ noise b p) (xs : List (List ℚ)) : dropOut 0 noise xs = xs := by
  unfold dropOut
  refine List.ext_getElem (by simp) fun b h1 h2 => ?_
  rw [List.getElem_mapIdx]
  refine List.ext_getElem (by simp) fun p h3 h4 => ?_
  rw [List.getElem_mapIdx, if_neg (not_lt.mpr (h b p))]
  norm_num

theorem TNode.forward_settled {t : TNode} {nz : Noise} {insB : List (List (List ℚ))} (h : t.Settled nz insB) (s : QState) (record : Bool) :
    t.forward s true record nz insB = (do
      let (s', outs) ← t.infer.call s record insB
      return (t.afterPass nz insB, s', outs)) := by
  cases t with
  | plain nd =>
    unfold TNode.forward
    simp only
    have hc : (TNode.plain nd).infer.callT s true record nz insB = (TNode.plain nd).infer.call s record insB :=
      Node.callT_eq (nd := nd) ⟨fun q hq => forward_det (h.1 q hq), fun L hL => forward_det (h.2 L hL)⟩ s record nz insB
    rw [hc]
    rfl
  | dropout rate =>
    obtain ⟨rfl, hz⟩ := h
    change Except.ok (TNode.dropout 0, s, dropOut 0 nz.out (insB.map (·.headD []))) = _
    rw [dropOut_zero hz]
    rfl
  | fused F =>
    unfold TNode.forward
    simp only
    rw [FusedLayer.trainPass_settled h]
    change _ = (Node.linear F.infer).call s record insB >>= _
    cases (Node.linear F.infer).call s record insB with
    | error e => rfl
    | ok r => rfl

/-- two networks with the same calls and the same proxies -/
inductive SameNet : Net → Net → Prop
  | nil : SameNet [] []
  | cons {a b : Node} {ins : List ℕ} {n n' : Net} (call : ∀ s r i, b.call s r i = a.call s r i) (proxy : ∀ s S, b.toProxy s S = a.toProxy s S)
      (rest : SameNet n n') : SameNet ((a, ins) :: n) ((b, ins) :: n')

theorem SameNet.call_eq {n n' : Net} (h : SameNet n n') (record : Bool) : ∀ ss envs, n'.call record ss envs = n.call record ss envs := by
  induction h with
  | nil => intro ss envs; rfl
  | cons hc hp hr ih =>
    intro ss envs
    cases ss with
    | nil => rfl
    | cons s ss =>
      unfold Net.call
      rw [hc]
      simp only [ih]

theorem SameNet.toProxy_eq {n n' : Net} (h : SameNet n n') (S : Sat) : ∀ ss, n'.toProxy S ss = n.toProxy S ss := by
  induction h with
  | nil => intro ss; rfl
  | cons hc hp hr ih =>
    intro ss
    cases ss with
    | nil => rfl
    | cons s ss =>
      unfold Net.toProxy
      rw [hp]
      simp only [ih]

theorem SameNet.predict_eq {n n' : Net} (h : SameNet n n') (ss : List QState) (x : List (List ℚ)) : n'.predict ss x = n.predict ss x := by
  unfold Net.predict
  rw [h.call_eq]

theorem TrainNet.forward_settled (record : Bool) : ∀ {net : TrainNet} {ss : List QState} {nz : ℕ → Noise} {envs : List (List (List ℚ))},
    net.Settled ss nz envs → ∀ {ss' : List QState} {outs : List (List (List ℚ))}, net.infer.call true ss envs = .ok (ss', outs) →
      ∃ net', net.forward true record ss nz envs = .ok (net', ss', outs) ∧ SameNet net.infer net'.infer
  | [], _, _, _, _, _, _, h => by cases h; exact ⟨[], rfl, .nil⟩
  | (t, ins) :: rest, s :: ss, nz, envs, hs, ss', outs, h => by
    have hf := TNode.forward_settled hs.1 s true
    unfold TrainNet.infer at h
    rw [List.map_cons] at h
    unfold Net.call at h
    simp only [bind, Except.bind] at h
    cases h1 : t.infer.call s true (envs.map (gather · ins)) with
    | error e => rw [h1] at h; cases h
    | ok r =>
      obtain ⟨s1, outs1⟩ := r
      rw [h1] at h hf
      simp only at h
      cases h2 : Net.call true (rest.map fun ti => (ti.1.infer, ti.2)) ss (List.zipWith (fun env o => env ++ [o]) envs outs1) with
      | error e => rw [h2] at h; cases h
      | ok r2 =>
        obtain ⟨ss2, outs2⟩ := r2
        rw [h2] at h
        cases h
        obtain ⟨net', g1, g2⟩ := TrainNet.forward_settled record (hs.2 _ _ _ hf) h2
        refine ⟨(t.afterPass (nz 0) (envs.map (gather · ins)), ins) :: net', ?_, ?_⟩
        · unfold TrainNet.forward
          simp only [Bool.true_or, hf, bind, Except.bind, pure, Except.pure]
          rw [g1]
        · refine .cons ?_ ?_ g2
          · cases t with
            | plain nd => exact fun _ _ _ => rfl
            | dropout rate => exact fun _ _ _ => rfl
            | fused F => exact (FusedLayer.afterPass_like hs.1).call
          · cases t with
            | plain nd => exact fun _ _ => rfl
            | dropout rate => exact fun _ _ => rfl
            | fused F => exact (FusedLayer.afterPass_like hs.1).toProxy
  | _ :: _, [], _, _, _, _, _, h => by cases h

/-- **C115** (partial): if the moving statistics of every fused layer are those of the batch it sees, its `bn_beta` is 0, it has a bias exactly
with `center` (and then `scale`), dropout layers have rate 0, and all quantizers are deterministic, then a training pass computes the tensors of inference and
records the ranges of inference; a proxy made from them without any calibration computes, for every sample of the batch, exactly what
the model computes after the pass. Missing: the other cases, in which it fails (`C115_beta_fails`, `C115_statistics_fail`, `C115_dropout_fails`). -/
theorem C115_training_ranges_partial (net : TrainNet) (ss : List QState) (nz : ℕ → Noise) (record aggressive : Bool) (batch : List (List (List ℚ)))
    (hw : net.infer.All Node.WF ss) (hr : ∀ s ∈ ss, s.mn = (fun _ => ⊤) ∧ s.mx = fun _ => ⊥) (hne : batch ≠ []) (hs : net.Settled ss nz batch) :
    ∃ net' ss' outs, net.forward true record ss nz batch = .ok (net', ss', outs) ∧ net.infer.call true ss batch = .ok (ss', outs) ∧
      (net.infer.All Bounded ss' → ∃ pm, net'.infer.toProxy (proxySat aggressive) ss' = .ok pm ∧
        ∀ x ∈ batch, net'.infer.predict ss' x = .ok (pm.eval x)) := by
  have hc : net.infer.All Node.Clipped ss := all_imp (fun _ _ h => h.clip) hw
  obtain ⟨ss', c1, c2, -, c4, c5⟩ := net.infer.call_spec true ss batch hc
  obtain ⟨net', g1, g2⟩ := TrainNet.forward_settled record hs c1
  refine ⟨net', ss', _, g1, c1, fun hb => ?_⟩
  have hw' : net.infer.All Node.WF ss' := Net.All.ext (fun _ _ _ h he => h.congr he.fbw) hw c2
  have hgrid : net.infer.All (fun _ s => GridState s) ss := by
    have : ∀ (n : Net) (ss : List QState), n.All Node.WF ss → (∀ s ∈ ss, s.mn = (fun _ => ⊤) ∧ s.mx = fun _ => ⊥) → n.All (fun _ s => GridState s) ss := by
      intro n
      induction n with
      | nil => intro ss h _; cases ss with | nil => trivial | cons => exact h
      | cons a n ih =>
        intro ss h hr
        cases ss with
        | nil => exact h
        | cons s ss =>
          refine ⟨fun e => ⟨fun v hv => ?_, fun v hv => ?_⟩, ih ss h.2 fun x hx => hr x (by simp [hx])⟩
          · rw [(hr s (by simp)).1] at hv; cases hv
          · rw [(hr s (by simp)).2] at hv; cases hv
    exact this _ _ hw hr
  obtain ⟨x0, hx0⟩ := List.exists_mem_of_ne_nil batch hne
  have ht : net.infer.All Node.AllTraced ss' := traced_all hw' (c5 hgrid) hb (c4 rfl x0 hx0)
  obtain ⟨pm, hpm, hev⟩ := C26_in_range net.infer ss' aggressive hw' ht
  refine ⟨pm, by rw [g2.toProxy_eq, hpm], fun x hx => ?_⟩
  rw [g2.predict_eq]
  exact hev x (c4 rfl x hx)

/-! ### examples -/

/-- a dense layer with one input and one output, fused with batch normalisation; `rsqrt` is right at 1, 4 and 16 -/
def fuLayer : FusedLayer where
  bn :=
    { center := true, scale := true, useBias := true, outShape := [1], chLoc := .last, taps := fun _ => [(0, 0)], kchan := fun _ => 0
      kernel := fun _ => 1, bias := fun _ => 0, gamma := fun _ => 1, beta := fun _ => 0, movingMean := fun _ => 0, movingVar := fun _ => 1
      eps := 0, momentum := 0, rsqrt := fun v => if v = 1 then 1 else if v = 4 then 1 / 2 else if v = 16 then 1 / 4 else 0 }
  qShape := [1]
  jitLoc := .last
  nChan := 1
  kq := ⟨0, true, some (-10, 20), fun _ => 1, 7 / 10⟩
  kfbw := fun _ => 3
  reluAct := false
  paq := ⟨0, true, some (-10, 20), fun _ => 1, 7 / 10⟩

/-- a quantizer and the fused layer -/
def fuModel (F : FusedLayer) : TrainModel where
  net := [(.plain (.quantize ⟨⟨0, true, some (-10, 20), fun _ => 1, 7 / 10⟩, [1], [1]⟩), [0]), (.fused F, [1])]
  states := [⟨fun _ => 2, fun _ => ⊤, fun _ => ⊥⟩, ⟨fun _ => 2, fun _ => ⊤, fun _ => ⊥⟩]

def fuNoise : ℕ → Noise := fun _ => ⟨fun _ => 0, fun _ => 0, fun _ _ => 0⟩

/-- a training pass on two samples -/
def fuPass (a b : ℚ) : Pass := ⟨true, false, fuNoise, [[[a]], [[b]]]⟩

/-- an optimizer step: gamma 2, beta 1 and, out of the clip range, bitwidth 30 -/
def fuUpdate : TrainOp := .update fun _ => ⟨fun _ => 1, fun _ => 0, fun _ => 2, fun _ => 1, fun _ => 3, fun _ => 30⟩

theorem fuLayer_good (F : FusedLayer) (h1 : F.bn.outShape = [1]) (h2 : F.qShape = [1]) (h3 : F.jitLoc = F.bn.chLoc)
    (h4 : F.kq = fuLayer.kq) (h5 : F.paq = fuLayer.paq) (h6 : F.bn.Built) : (fuModel F).Good := by
  have hk : fuLayer.kq.Known := .inl rfl
  refine ⟨?_, rfl⟩
  intro ti hti
  simp only [fuModel, List.mem_cons, List.not_mem_nil, or_false] at hti
  rcases hti with rfl | rfl
  · refine ⟨⟨fun q hq => ?_, fun q hq => ?_, fun L hL => (by cases hL), fun _ _ _ hn => by cases hn⟩, ⟨fun q hq => ?_, fun L hL => by cases hL⟩,
      fun F hF => by cases hF⟩
    · cases hq; decide
    · cases hq; exact ⟨-10, 20, rfl, by norm_num⟩
    · cases hq; exact .inl rfl
  · refine ⟨⟨fun q hq => ?_, fun q hq => ?_, fun L hL => ?_, fun _ _ _ hn => by cases hn⟩, ⟨fun q hq => ?_, fun L hL => ?_⟩,
      fun F hF => by cases hF; exact h6⟩
    · cases hq
      change Compat F.bn.outShape F.qShape
      rw [h1, h2]; decide
    · cases hq
      change ∃ lo hi : ℚ, F.paq.bwClip = some (lo, hi) ∧ -32 ≤ lo
      rw [h5]
      exact ⟨-10, 20, rfl, by norm_num⟩
    · cases hL; exact .inl h3
    · cases hq
      change F.paq.Known
      rw [h5]; exact .inl rfl
    · cases hL
      change F.kq.Known
      rw [h4]; exact hk

theorem fuLayer_built : fuLayer.bn.Built := ⟨fun _ => rfl, fun h => (by cases h), fun h => by cases h⟩

-- C113, its hypotheses: the model of the examples, trained by two passes and an optimizer step
example := C113_deployed_after_training (fuModel fuLayer) (fuLayer_good fuLayer rfl rfl rfl rfl rfl fuLayer_built)
  [.forward (fuPass (-1) 1), fuUpdate] (fuPass 0 4) 2 [[[1]], [[7 / 2]]] true (by norm_num) (by simp)

-- what happens in it: the statistics move to mean 2 and variance 4, the bitwidths are clipped, and the proxy gives 2·(x - 2)/2 + 1
example : (match (fuModel fuLayer).run ([.forward (fuPass (-1) 1), fuUpdate] ++ [.forward (fuPass 0 4)]) with
    | .ok m' => (match m'.net.infer.trace m'.states 2 [[[1]], [[7 / 2]]] with
      | .ok (ss', preds) => (match m'.net.infer.toProxy (proxySat true) ss' with
        | .ok pm => some (m'.states.map (fun s => s.fbw 0), preds, pm.eval [[7 / 2]])
        | .error _ => none)
      | .error _ => none)
    | .error _ => none) = some ([20, 20], [[[1], [1], [0]], [[7 / 2], [7 / 2], [5 / 2]]], [[7 / 2], [7 / 2], [5 / 2]]) := by decide +kernel

theorem fuLayer_noBias : fuLayer.NoBias := ⟨rfl, fun p hp ij _ => by
  have : p = 0 := by have : p < 1 := hp; omega
  subst this
  rfl, fun _ _ _ => rfl⟩

-- C114, its hypotheses: the same history, bitwidths 20 and 3
example : ∃ K : ℚ, ∀ (m' : TrainModel), (fuModel fuLayer).run ([.forward (fuPass (-1) 1), fuUpdate] ++ [.forward (fuPass 0 4)]) = .ok m' →
    m'.net.infer.float = [(.ident 1, [0]), (.linear 1 (fun _ => [(0, 0)]) (fun _ => 1) (fun _ => -1) false, [1])] →
    (∀ ti ∈ m'.net, ∀ F, ti.1 = .fused F → F.NoBias) → m'.net.infer.All (Node.Fine 3) m'.states →
      ∃ ss' preds, m'.net.infer.trace m'.states 1 [[[1]], [[3]]] = .ok (ss', preds) ∧ (m'.net.infer.All Bounded ss' →
        ∃ pm, m'.net.infer.toProxy (proxySat true) ss' = .ok pm ∧
          ∀ x ∈ [[[(1 : ℚ)]], [[3]]], List.Forall₂ (Close (K / 2 ^ 3)) (pm.eval x) (m'.net.reference.eval x)) := by
  obtain ⟨K, h⟩ := C114_deployed_is_batch_norm_partial [(.ident 1, [0]), (.linear 1 (fun _ => [(0, 0)]) (fun _ => 1) (fun _ => -1) false, [1])]
    (by intro l hl; simp only [List.mem_cons, List.not_mem_nil, or_false] at hl; rcases hl with rfl | rfl <;> trivial) 4 (by norm_num)
  refine ⟨K, fun m' h1 h2 h3 h4 => h (fuModel fuLayer) (fuLayer_good fuLayer rfl rfl rfl rfl rfl fuLayer_built) _ _ m' h1 h2 h3 3 h4 1 _ true ?_
    (by norm_num) (by simp)⟩
  intro x hx t ht p
  simp only [List.mem_cons, List.not_mem_nil, or_false] at hx
  rcases hx with rfl | rfl <;> (simp only [List.mem_cons, List.not_mem_nil, or_false] at ht; subst ht; rcases p with _ | p <;> norm_num)

-- the hypotheses on `m'` are met: bias 0, `scale`, the fused kernel 1 and bias -1, and at least 3 bits
example : (match (fuModel fuLayer).run ([.forward (fuPass (-1) 1), fuUpdate] ++ [.forward (fuPass 0 4)]) with
    | .ok m' => m'.net.map (fun ti => match ti.1 with
        | .fused F => [if F.bn.scale then 1 else 0, F.bn.bias 0, F.infer.kernel 0, (F.infer.bias.getD fun _ => 0) 0, F.kq.clip (F.kfbw 0)]
        | _ => [])
    | .error _ => []) = [([] : List ℚ), [1, 0, 1, -1, 3]] := by decide +kernel

/-- **C114**, what fails with a bias: mean 3 and variance 4, bias 1, input 4; batch normalisation of `4 + 1` is 1, the layer without quantizers
computes `3/2`. -/
theorem C114_bias_fails :
    let F := { fuLayer with bn := { fuLayer.bn with bias := fun _ => 1, movingMean := fun _ => 3, movingVar := fun _ => 4 } }
    F.bn.Built ∧ (Node.linear F.infer).float.eval [[4]] = [3 / 2] ∧
      Norm.apply ⟨F.bn.gamma, F.bn.beta, F.bn.movingMean, F.bn.movingVar, F.bn.eps, F.bn.rsqrt⟩ 0 (4 + 1) = 1 :=
  ⟨⟨fun _ => rfl, fun h => (by cases h), fun h => by cases h⟩, by decide +kernel, by decide +kernel⟩

/-- **C114**, what fails with `scale=False`: mean 2, epsilon 3; the mean is divided by `sqrt(1 + 3) = 2`, the value is not. -/
theorem C114_no_scale_fails :
    let F := { fuLayer with bn := { fuLayer.bn with scale := false, movingMean := fun _ => 2, eps := 3 } }
    F.bn.Built ∧ (Node.linear F.infer).float.eval [[4]] = [3] ∧ (TNode.fused F).reference.eval [[4]] = [1] :=
  ⟨⟨fun _ => rfl, fun h => (by cases h), fun _ => ⟨rfl, rfl⟩⟩, by decide +kernel, by decide +kernel⟩

/-- what a proxy made after a training pass from the ranges recorded in it computes, against the model after the pass: the prediction for `x`, and
the outputs of the proxies with overflow wrapping and saturating -/
def fuCompare (F : FusedLayer) (p : Pass) (x : ℚ) : Option (List (List ℚ) × List (List ℚ) × List (List ℚ)) :=
  match (fuModel F).run [.forward p] with
  | .ok m' => match m'.net.infer.predict m'.states [[x]], m'.net.infer.toProxy .WRAP m'.states, m'.net.infer.toProxy .SAT m'.states with
    | .ok y, .ok pm, .ok pm' => some (y, pm.eval [[x]], pm'.eval [[x]])
    | _, _, _ => none
  | .error _ => none

/-- **C115**, what fails with `bn_beta`: the statistics of the batch are the moving ones, but with `bn_beta = 4` the model predicts 5 for the
sample 1 of the batch, while the training pass recorded values in [-1, 1]; the proxies made from these ranges give 1 and 7/4. -/
theorem C115_beta_fails : fuCompare { fuLayer with bn := { fuLayer.bn with beta := fun _ => 4 } } (fuPass (-1) 1) 1 =
    some ([[1], [1], [5]], [[1], [1], [1]], [[1], [1], [7 / 4]]) := by decide +kernel

/-- **C115**, what fails when the moving statistics lag behind (momentum 3/4): the training pass on 8 and 10 recorded -1 and 1, the model after the
pass predicts 23/4 for 8. -/
theorem C115_statistics_fail : fuCompare { fuLayer with bn := { fuLayer.bn with momentum := 3 / 4 } } (fuPass 8 10) 8 =
    some ([[8], [8], [23 / 4]], [[8], [8], [7 / 4]], [[8], [8], [7 / 4]]) := by decide +kernel

/-- **C115**, what fails with a bias and `center=False`: training does not add the bias. -/
theorem C115_no_center_fails : fuCompare { fuLayer with bn := { fuLayer.bn with center := false, bias := fun _ => 4 } } (fuPass (-1) 1) 1 =
    some ([[1], [1], [5]], [[1], [1], [1]], [[1], [1], [7 / 4]]) := by decide +kernel

/-- two quantizers with a dropout layer of rate 1/2 between them -/
def fuDrop : TrainModel where
  net := [(.plain (.quantize ⟨⟨0, true, some (-10, 20), fun _ => 1, 7 / 10⟩, [1], [1]⟩), [0]), (.dropout (1 / 2), [1]),
    (.plain (.quantize ⟨⟨0, true, some (-10, 20), fun _ => 1, 7 / 10⟩, [1], [1]⟩), [2])]
  states := List.replicate 3 ⟨fun _ => 2, fun _ => ⊤, fun _ => ⊥⟩

/-- a training pass on the samples 4 and 1 in which the first is dropped -/
def fuDropPass : Pass := ⟨true, false, fun _ => ⟨fun _ => 0, fun _ => 0, fun b _ => if b = 0 then 0 else 1 / 2⟩, [[[4]], [[1]]]⟩

/-- **C115**, what fails with dropout: the training pass turns 4 and 1 into 0 and 2, so the ranges recorded behind the dropout layer do not contain 4;
the proxies made from them give 0 and 15/4 for the sample 4. -/
theorem C115_dropout_fails : (match fuDrop.run [.forward fuDropPass] with
    | .ok m' => (match m'.net.infer.predict m'.states [[4]], m'.net.infer.toProxy .WRAP m'.states, m'.net.infer.toProxy .SAT m'.states with
      | .ok y, .ok pm, .ok pm' => some (y, pm.eval [[4]], pm'.eval [[4]])
      | _, _, _ => none)
    | .error _ => none) = some ([[4], [4], [4], [4]], [[4], [4], [4], [0]], [[4], [4], [4], [15 / 4]]) := by decide +kernel

theorem fuDrop_good : fuDrop.Good := by
  refine ⟨?_, rfl⟩
  intro ti hti
  have hq : (TNode.plain (.quantize ⟨⟨0, true, some (-10, 20), fun _ => 1, 7 / 10⟩, [1], [1]⟩)).Good := by
    refine ⟨⟨fun q hq => ?_, fun q hq => ?_, fun L hL => (by cases hL), fun _ _ _ hn => by cases hn⟩, ⟨fun q hq => ?_, fun L hL => by cases hL⟩,
      fun F hF => by cases hF⟩
    · cases hq; decide
    · cases hq; exact ⟨-10, 20, rfl, by norm_num⟩
    · cases hq; exact .inl rfl
  simp only [fuDrop, List.mem_cons, List.not_mem_nil, or_false] at hti
  rcases hti with rfl | rfl | rfl
  · exact hq
  · exact ⟨⟨fun q hq => (by cases hq), fun q hq => (by cases hq), fun L hL => (by cases hL), fun _ _ _ hn => by cases hn⟩,
      ⟨fun q hq => (by cases hq), fun L hL => by cases hL⟩, fun F hF => by cases hF⟩
  · exact hq

-- C113 with a dropout layer
example := C113_deployed_after_training fuDrop fuDrop_good [] fuDropPass 2 [[[1]], [[4]]] true (by norm_num) (by simp)

theorem fuLayer_settled (nz : Noise) : fuLayer.Settled nz [[[-1]], [[1]]] where
  flags := rfl
  scale := fun _ => rfl
  loc := rfl
  kq := ⟨rfl, .inl (by decide)⟩
  paq := ⟨rfl, .inl (by decide)⟩
  stats := fun p hp => by
    have : p = 0 := by have : p < 1 := hp; omega
    subst this
    have hv : fuLayer.bn.chanVals fuLayer.bn.kernel [[-1], [1]] 0 = [-1, 1] := by decide +kernel
    refine ⟨?_, fun _ => ?_, fun _ => ?_⟩
    · change fuLayer.bn.chanVals fuLayer.bn.kernel [[-1], [1]] 0 ≠ []
      rw [hv]; simp
    · change (0 : ℚ) = meanL ((fuLayer.bn.chanVals fuLayer.bn.kernel [[-1], [1]] 0).map (· + 0))
      rw [hv]; decide +kernel
    · change (1 : ℚ) = varL (fuLayer.bn.chanVals fuLayer.bn.kernel [[-1], [1]] 0)
      rw [hv]; decide +kernel
  chan := fuLayer_noBias.chan
  beta := fun _ _ _ => rfl

/-- the model of the examples is settled on the batch -1, 1 -/
theorem fuModel_settled : (fuModel fuLayer).net.Settled (fuModel fuLayer).states fuNoise [[[-1]], [[1]]] := by
  have hq : ∀ t' s' outs, (TNode.plain (.quantize ⟨⟨0, true, some (-10, 20), fun _ => 1, 7 / 10⟩, [1], [1]⟩)).forward
      ⟨fun _ => 2, fun _ => ⊤, fun _ => ⊥⟩ true true (fuNoise 0) [[[-1]], [[1]]] = .ok (t', s', outs) → outs = [[-1], [1]] := by
    intro t' s' outs h
    have : (match (TNode.plain (.quantize ⟨⟨0, true, some (-10, 20), fun _ => 1, 7 / 10⟩, [1], [1]⟩)).forward
      ⟨fun _ => 2, fun _ => ⊤, fun _ => ⊥⟩ true true (fuNoise 0) [[[-1]], [[1]]] with | .ok (_, _, o) => o | .error _ => []) = [[-1], [1]] := by
      decide +kernel
    rw [h] at this
    exact this
  refine ⟨⟨fun q hq => ?_, fun L hL => by cases hL⟩, fun t' s' outs h => ?_⟩
  · cases hq; exact ⟨rfl, .inl (by decide)⟩
  · have ho : outs = [[-1], [1]] := hq t' s' outs h
    subst ho
    exact ⟨fuLayer_settled _, fun _ _ _ _ => trivial⟩

theorem fuModel_wf : (fuModel fuLayer).net.infer.All Node.WF (fuModel fuLayer).states := by
  have hg := (fuLayer_good fuLayer rfl rfl rfl rfl rfl fuLayer_built).layers
  have hc : clipByValue 2 (-10) 20 = 2 := by decide +kernel
  refine ⟨(hg _ List.mem_cons_self).conf.wf (s := ⟨fun _ => 2, fun _ => ⊤, fun _ => ⊥⟩) ?_,
    (hg _ (List.mem_cons_of_mem _ List.mem_cons_self)).conf.wf (s := ⟨fun _ => 2, fun _ => ⊤, fun _ => ⊥⟩) ?_, trivial⟩ <;>
    (funext e; exact hc.symm)

-- C115, its hypotheses, and what the ranges recorded in the pass give
example := C115_training_ranges_partial (fuModel fuLayer).net (fuModel fuLayer).states fuNoise false true [[[-1]], [[1]]]
  fuModel_wf
  (by intro s hs; simp only [fuModel, List.mem_cons, List.not_mem_nil, or_false] at hs; rcases hs with rfl | rfl <;> exact ⟨rfl, rfl⟩)
  (by simp) fuModel_settled

example : fuCompare fuLayer (fuPass (-1) 1) 1 = some ([[1], [1], [1]], [[1], [1], [1]], [[1], [1], [1]]) := by decide +kernel

end HGQ
