import Verif.Props.TrainNet
import Verif.Props.BNFit

/-!
C110: what training passes change in a layer whose weights stay the same (`layer.trainable = False`).
-/

namespace HGQ

/-! ### models without batch normalisation -/

theorem Node.callT_ext {nd : Node} {s s' : QState} {training record : Bool} {nz : Noise} {b : List (List (List ℚ))} {o : List (List ℚ)}
    (hc : nd.Clipped s) (h : nd.callT s training record nz b = .ok (s', o)) : Ext s s' ∧ (record = false → s' = s) := by
  unfold Node.callT at h
  cases hs : nd.site with
  | none => rw [hs] at h; cases h; exact ⟨Ext.refl _, fun _ => rfl⟩
  | some q =>
    rw [hs] at h
    simp only [bind, Except.bind] at h
    revert h
    generalize List.mapM (m := Except String) _ b = zs
    intro h
    cases zs with
    | error e => cases h
    | ok zs =>
      simp only [QConf.call, bind, Except.bind] at h
      have hcl : (fun e => q.conf.clip (s.fbw e)) = s.fbw := funext fun e => hc q hs e
      rw [hcl] at h
      cases hf : q.conf.forwardBatch q.elem s.fbw nz.out training zs with
      | error e => rw [hf] at h; cases h
      | ok y =>
        rw [hf] at h
        cases record with
        | true => cases h; exact ⟨ext_record s _ _, fun h => nomatch h⟩
        | false => cases h; exact ⟨Ext.refl _, fun _ => rfl⟩

theorem Net.callT_ext {training record : Bool} : ∀ {net : Net} {ss ss' : List QState} {nz : ℕ → Noise} {envs o : List (List (List ℚ))},
    net.All Node.Clipped ss → net.callT training record ss nz envs = .ok (ss', o) →
    ExtL ss ss' ∧ (training = false → record = false → ss' = ss)
  | [], [], _, _, _, _, _, h => by cases h; exact ⟨.nil, fun _ _ => rfl⟩
  | (nd, ins) :: net, s :: ss, ss', nz, envs, o, hc, h => by
    unfold Net.callT at h
    simp only [bind, Except.bind] at h
    cases h1 : nd.callT s training (training || record) (nz 0) (envs.map (gather · ins)) with
    | error e => rw [h1] at h; cases h
    | ok r =>
      obtain ⟨s', outs⟩ := r
      rw [h1] at h
      simp only at h
      cases h2 : Net.callT training record net ss (fun i => nz (i + 1)) (List.zipWith (fun env o => env ++ [o]) envs outs) with
      | error e => rw [h2] at h; cases h
      | ok r2 =>
        obtain ⟨ss2, o2⟩ := r2
        rw [h2] at h
        cases h
        obtain ⟨a1, a2⟩ := Node.callT_ext hc.1 h1
        obtain ⟨b1, b2⟩ := Net.callT_ext hc.2 h2
        refine ⟨.cons a1 b1, fun ht hr => ?_⟩
        rw [a2 (by rw [ht, hr]; rfl), b2 ht hr]

theorem Net.passes_ext {net : Net} : ∀ {ps : List Pass} {ss ss' : List QState}, net.All Node.Clipped ss →
    net.passes ss ps = .ok ss' → ExtL ss ss' ∧ ((∀ p ∈ ps, p.training = false ∧ p.record = false) → ss' = ss)
  | [], ss, ss', _, h => by cases h; exact ⟨ExtL.refl _, fun _ => rfl⟩
  | p :: ps, ss, ss', hc, h => by
    unfold Net.passes at h
    simp only [bind, Except.bind] at h
    cases h1 : net.callT p.training p.record ss p.noise p.batch with
    | error e => rw [h1] at h; cases h
    | ok r =>
      obtain ⟨s1, o⟩ := r
      rw [h1] at h
      obtain ⟨a1, a2⟩ := Net.callT_ext hc h1
      obtain ⟨b1, b2⟩ := Net.passes_ext (Net.All.ext clipped_ext hc a1) h
      refine ⟨a1.trans b1, fun hall => ?_⟩
      have hp := hall p (by simp)
      rw [b2 fun q hq => hall q (by simp [hq]), a2 hp.1 hp.2]

/-- **C110**, models without batch normalisation: after any sequence of calls that change no weight (in training or not,
recording or not, any random numbers, any batches), the model computes the same outputs for every input. -/
theorem C110_outputs_partial (net : Net) (ss ss' : List QState) (ps : List Pass) (hc : net.All Node.Clipped ss)
    (h : net.passes ss ps = .ok ss') (batch : List (List (List ℚ))) :
    ∃ s1 s2 outs, net.call false ss batch = .ok (s1, outs) ∧ net.call false ss' batch = .ok (s2, outs) := by
  obtain ⟨he, -⟩ := Net.passes_ext hc h
  obtain ⟨s1, h1, -⟩ := net.call_spec false ss batch hc
  obtain ⟨s2, h2, -⟩ := net.call_spec false ss' batch (Net.All.ext clipped_ext hc he)
  rw [he.fbw] at h2
  exact ⟨s1, s2, _, h1, h2⟩

/-- **C110**, recorded ranges: they only grow, and change only if a call was made in training or while recording. -/
theorem C110_ranges (net : Net) (ss ss' : List QState) (ps : List Pass) (hc : net.All Node.Clipped ss)
    (h : net.passes ss ps = .ok ss') :
    List.Forall₂ (fun s s' => s'.fbw = s.fbw ∧ ∀ e, s'.mn e ≤ s.mn e ∧ s.mx e ≤ s'.mx e) ss ss' ∧
    ((∀ p ∈ ps, p.training = false ∧ p.record = false) → ss' = ss) := by
  obtain ⟨he, h2⟩ := Net.passes_ext hc h
  exact ⟨he.imp fun a b h => ⟨h.fbw, fun e => ⟨h.mn e, h.mx e⟩⟩, h2⟩

/-- Two training passes and an inference pass on a model with one quantizer: hypotheses, and the ranges afterwards. -/
example : (match Net.passes [(.quantize ⟨⟨0, true, some (-10, 20), fun _ => 1, 7 / 10⟩, [1], [1]⟩, [0])]
      [⟨fun _ => 2, fun _ => ⊤, fun _ => ⊥⟩]
      [⟨true, false, fun _ => ⟨fun _ => 0, fun _ => 0, fun _ _ => 0⟩, [[[1]], [[-3]]]⟩,
       ⟨false, false, fun _ => ⟨fun _ => 0, fun _ => 0, fun _ _ => 0⟩, [[[9]]]⟩,
       ⟨true, true, fun _ => ⟨fun _ => 0, fun _ => 0, fun _ _ => 0⟩, [[[2]]]⟩] with
    | .ok [s] => decide ((s.fbw 0, s.mn 0, s.mx 0) = (2, ((-3 : ℚ) : WithTop ℚ), ((2 : ℚ) : WithBot ℚ)))
    | _ => false) = true := by
  decide +kernel

/-- the hypotheses of `C110_outputs_partial` on a model with a dense layer, after a training pass with random numbers -/
example (ss' : List QState) (h : exNet.passes exNetStates
      [⟨true, false, fun _ => ⟨fun _ => 1 / 3, fun _ => 1 / 2, fun b p => b / (p + 2)⟩, exData⟩] = .ok ss') :
    ∃ s1 s2 outs, exNet.call false exNetStates exData = .ok (s1, outs) ∧ exNet.call false ss' exData = .ok (s2, outs) :=
  C110_outputs_partial exNet exNetStates _ _ (let h := exNet_wf; ⟨h.1.clip, h.2.1.clip, h.2.2.1.clip, h.2.2.2.1.clip, trivial⟩) h _

example : (match exNet.passes exNetStates
      [⟨true, false, fun _ => ⟨fun _ => 1 / 3, fun _ => 1 / 2, fun b p => b / (p + 2)⟩, exData⟩] with
    | .ok _ => true | .error _ => false) = true := by decide +kernel

/-! ### fused batch normalisation -/

theorem frozen_one_mean (b : BNLayer) (p : (ℕ → ℚ) × List (List ℚ)) (c : ℕ) : (b.frozenFit [p]).movingMean c =
    if b.center then b.movingMean c + (1 - b.momentum) *
      (meanL (b.chanVals (if b.scale then b.kernel else p.1) p.2 c) + b.bias c - b.movingMean c) else b.movingMean c := by
  show (b.step _).movingMean c = _
  rw [step_mean]
  split_ifs
  · simp only [BNLayer.stepVals]; split_ifs; ring
  · simp only [BNLayer.stepVals]; split_ifs; ring
  · rfl

theorem frozen_one_var (b : BNLayer) (p : (ℕ → ℚ) × List (List ℚ)) (c : ℕ) : (b.frozenFit [p]).movingVar c =
    if b.scale then b.movingVar c + (1 - b.momentum) * (varL (b.chanVals b.kernel p.2 c) - b.movingVar c)
    else b.movingVar c := by
  show (b.step _).movingVar c = _
  rw [step_var]
  split_ifs with h
  · simp only [BNLayer.stepVals, h, if_true]; ring
  · rfl

/-- **C110** for fused layers, where it holds: with momentum 1, or with both `center` and `scale` switched off, a frozen layer is
not changed at all by any history. -/
theorem C110_fused_partial (b : BNLayer) (h : b.momentum = 1 ∨ (b.center = false ∧ b.scale = false))
    (ps : List ((ℕ → ℚ) × List (List ℚ))) : b.frozenFit ps = b := by
  have hone : ∀ p : (ℕ → ℚ) × List (List ℚ), b.step ⟨b.kernel, b.bias, b.gamma, b.beta, p.1, p.2⟩ = b := by
    intro p
    unfold BNLayer.step BNLayer.train BNLayer.withVars
    obtain ⟨center, scale, useBias, outShape, chLoc, taps, kchan, kernel, bias, gamma, beta, mm, mv, eps, mom, rs⟩ := b
    rcases h with h | ⟨h1, h2⟩
    · simp only at h
      subst h
      cases center <;> cases scale <;> simp
    · simp only at h1 h2
      subst h1 h2
      simp
  unfold BNLayer.frozenFit
  induction ps with
  | nil => rfl
  | cons p ps ih => rw [List.foldl_cons, hone p, ih]

/-- **C110** fails for fused layers otherwise. One training pass of a frozen layer keeps the statistics of a channel exactly when
the momentum is 1 or the batch happens to have the mean (with `center`) and the variance (with `scale`) that are stored. -/
theorem C110_fused_iff (b : BNLayer) (qk : ℕ → ℚ) (batch : List (List ℚ)) (c : ℕ) :
    ((b.frozenFit [(qk, batch)]).movingMean c = b.movingMean c ∧ (b.frozenFit [(qk, batch)]).movingVar c = b.movingVar c) ↔
    b.momentum = 1 ∨
      ((b.center = true → meanL (b.chanVals (if b.scale then b.kernel else qk) batch c) + b.bias c = b.movingMean c) ∧
       (b.scale = true → varL (b.chanVals b.kernel batch c) = b.movingVar c)) := by
  rw [frozen_one_mean, frozen_one_var]
  by_cases hm : b.momentum = 1
  · simp [hm]
  have hm' : 1 - b.momentum ≠ 0 := fun h => hm (by linarith)
  have key : ∀ x y : ℚ, x + (1 - b.momentum) * (y - x) = x ↔ y = x := by
    intro x y
    constructor
    · intro h
      have : (1 - b.momentum) * (y - x) = 0 := by linarith
      rcases mul_eq_zero.mp this with h | h
      · exact absurd h hm'
      · linarith
    · rintro rfl; ring
  simp only [hm, false_or]
  refine and_congr ?_ ?_
  · by_cases h : b.center = true
    · simp only [h, if_true, key, forall_const]
    · simp [h]
  · by_cases h : b.scale = true
    · simp only [h, if_true, key, forall_const]
    · simp [h]

theorem lin_zero (b : BNLayer) (k : ℕ → ℚ) (x : List ℚ) (hx : ∀ v ∈ x, v = 0) (p : ℕ) : b.lin k x p = 0 := by
  unfold BNLayer.lin
  refine List.sum_eq_zero fun v hv => ?_
  obtain ⟨ij, -, rfl⟩ := List.mem_map.mp hv
  have : x.getD ij.1 0 = 0 := by
    rw [List.getD_eq_getElem?_getD]
    cases h : x[ij.1]? with
    | none => rfl
    | some v => exact hx v (List.mem_of_getElem? h)
  rw [this, zero_mul]

/-- **C110** fails for fused layers, whatever the weights: unless the momentum is 1, a pass on zeros changes the stored variance
of every channel where it is not zero (it is 1 at the start), and the stored mean where it is not the bias. -/
theorem C110_fused_changes (b : BNLayer) (hm : b.momentum ≠ 1) (qk : ℕ → ℚ) (batch : List (List ℚ)) (hb : ∀ x ∈ batch, ∀ v ∈ x, v = 0)
    (c : ℕ) :
    (b.scale = true → b.movingVar c ≠ 0 → (b.frozenFit [(qk, batch)]).movingVar c ≠ b.movingVar c) ∧
    (b.center = true → b.movingMean c ≠ b.bias c → (b.frozenFit [(qk, batch)]).movingMean c ≠ b.movingMean c) := by
  have hz : ∀ k, ∀ v ∈ b.chanVals k batch c, v = 0 := by
    intro k v hv
    unfold BNLayer.chanVals at hv
    obtain ⟨x, hx, hv⟩ := List.mem_flatMap.mp hv
    obtain ⟨p, -, rfl⟩ := List.mem_map.mp hv
    exact lin_zero b k x (hb x hx) p
  have hmean : ∀ l : List ℚ, (∀ v ∈ l, v = 0) → meanL l = 0 := by
    intro l hl
    unfold meanL
    rw [List.sum_eq_zero hl, zero_div]
  have hvar : ∀ l : List ℚ, (∀ v ∈ l, v = 0) → varL l = 0 := by
    intro l hl
    unfold varL
    refine hmean _ fun v hv => ?_
    obtain ⟨w, hw, rfl⟩ := List.mem_map.mp hv
    rw [hmean l hl, hl w hw]; norm_num
  have hm' : 1 - b.momentum ≠ 0 := fun h => hm (by linarith)
  constructor
  · intro hs hv h
    rw [frozen_one_var, if_pos hs, hvar _ (hz _)] at h
    have : (1 - b.momentum) * b.movingVar c = 0 := by linarith
    rcases mul_eq_zero.mp this with h | h
    · exact hm' h
    · exact hv h
  · intro hs hv h
    rw [frozen_one_mean, if_pos hs, hmean _ (hz _)] at h
    have : (1 - b.momentum) * (b.bias c - b.movingMean c) = 0 := by linarith
    rcases mul_eq_zero.mp this with h | h
    · exact hm' h
    · exact hv (by linarith)

/-- **C110** fails at inference: a frozen layer (kernel 1, bias 1, stored mean 3 and variance 4) has fused kernel `1/2` and bias
`-1/2`; after a training pass on the batch `0, 8` they are `1/3` and `-1/3`. -/
theorem C110_fused_inference_changes : let b := { exBN with momentum := 1 / 2 }
    let b' := b.frozenFit [(fun _ => 0, [[0], [8]])]
    (b.fusedKernel 0, b.inferBias 0) = (1 / 2, -1 / 2) ∧ (b'.fusedKernel 0, b'.inferBias 0) = (1 / 3, -1 / 3) ∧
      b'.movingMean 0 = 4 ∧ b'.movingVar 0 = 10 := by
  decide +kernel

-- hypotheses of `C110_fused_partial` and `C110_fused_changes`
example : ({ exBN with center := false, scale := false }).frozenFit [(fun _ => 0, [[0], [8]])] =
    { exBN with center := false, scale := false } := C110_fused_partial _ (.inr ⟨rfl, rfl⟩) _

example : (exBN.frozenFit [(fun _ => 0, [[0], [0]])]).movingVar 0 ≠ exBN.movingVar 0 ∧
    (exBN.frozenFit [(fun _ => 0, [[0], [0]])]).movingMean 0 ≠ exBN.movingMean 0 :=
  let h := C110_fused_changes exBN (by norm_num [exBN]) (fun _ => 0) [[0], [0]] (by simp) 0
  ⟨h.1 rfl (by norm_num [exBN]), h.2 rfl (by norm_num [exBN])⟩

end HGQ
