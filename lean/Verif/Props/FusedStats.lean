import Verif.Props.FusedNet
import Verif.Props.BNFit

/-!
C116: the moving statistics of the fused batch-normalisation layers of a model, over whole training histories of the model.
-/

namespace HGQ

/-! ### what a training pass does to one layer of the model -/

theorem mapM_lenT {α β : Type} {f : α → Except String β} : ∀ {l : List α} {r : List β}, l.mapM f = .ok r → r.length = l.length
  | [], r, h => by cases h; rfl
  | a :: l, r, h => by
    rw [List.mapM_cons] at h
    simp only [bind, Except.bind] at h
    cases h1 : f a with
    | error e => rw [h1] at h; cases h
    | ok b =>
      rw [h1] at h
      cases h2 : l.mapM f with
      | error e => rw [h2] at h; cases h
      | ok r' =>
        rw [h2] at h
        cases h
        rw [List.length_cons, List.length_cons, mapM_lenT h2]

theorem QConf.call_len {c : QConf} {elem : ℕ → ℕ} {s s' : QState} {noise : ℕ → ℕ → ℚ} {training record : Bool} {xs ys : List (List ℚ)}
    (h : c.call elem s noise training record xs = .ok (s', ys)) : ys.length = xs.length := by
  unfold QConf.call at h
  simp only [bind, Except.bind] at h
  cases h1 : c.forwardBatch elem (fun e => c.clip (s.fbw e)) noise training xs with
  | error e => rw [h1] at h; cases h
  | ok zs =>
    rw [h1] at h
    have := mapM_lenT h1
    rw [List.length_zipIdx] at this
    cases record <;> cases h <;> exact this

theorem Node.callT_len {nd : Node} {s s' : QState} {training record : Bool} {nz : Noise} {insB : List (List (List ℚ))} {outs : List (List ℚ)}
    (h : nd.callT s training record nz insB = .ok (s', outs)) : outs.length = insB.length := by
  unfold Node.callT at h
  cases hs : nd.site with
  | none => rw [hs] at h; cases h; rw [List.length_map]
  | some q =>
    rw [hs] at h
    simp only [bind, Except.bind] at h
    cases h1 : insB.mapM fun ins => (List.range (prodL q.outShape)).mapM (nd.preAtT training s.fbw nz ins) with
    | error e => rw [h1] at h; cases h
    | ok zs =>
      rw [h1] at h
      simp only at h
      cases h2 : q.conf.call q.elem s nz.out training record zs with
      | error e => rw [h2] at h; cases h
      | ok r =>
        rw [h2] at h
        cases h
        rw [List.length_map, QConf.call_len h2, mapM_lenT h1]

/-- the layer after a pass: only a fused layer in training changes -/
def TNode.after (training : Bool) (nz : Noise) (xs : List (List ℚ)) : TNode → TNode
  | .fused F => if training then .fused { F with bn := (F.bn.train (F.statKernel nz) xs).layer } else .fused F
  | t => t

theorem TNode.forward_after {t t' : TNode} {s s' : QState} {training record : Bool} {nz : Noise} {insB : List (List (List ℚ))}
    {outs : List (List ℚ)} (h : t.forward s training record nz insB = .ok (t', s', outs)) :
    t' = t.after training nz (insB.map (·.headD [])) ∧ outs.length = insB.length := by
  cases t with
  | plain nd =>
    have : TNode.forward (.plain nd) s training record nz insB = (do
        let (s', outs) ← nd.callT s training record nz insB
        return (.plain nd, s', outs)) := by cases training <;> rfl
    rw [this] at h
    simp only [bind, Except.bind] at h
    cases h1 : nd.callT s training record nz insB with
    | error e => rw [h1] at h; cases h
    | ok r => rw [h1] at h; cases h; exact ⟨rfl, Node.callT_len h1⟩
  | dropout rate =>
    cases training with
    | false => cases h; exact ⟨rfl, by rw [List.length_map]⟩
    | true => cases h; exact ⟨rfl, by unfold dropOut; rw [List.length_mapIdx, List.length_map]⟩
  | fused F =>
    cases training with
    | false =>
      unfold TNode.forward at h
      simp only [bind, Except.bind] at h
      cases h1 : (TNode.fused F).infer.callT s false record nz insB with
      | error e => rw [h1] at h; cases h
      | ok r => rw [h1] at h; cases h; exact ⟨rfl, Node.callT_len h1⟩
    | true =>
      unfold TNode.forward FusedLayer.trainPass at h
      simp only [bind, Except.bind] at h
      cases h1 : (Node.linear (F.trainLin (F.bn.train (F.statKernel nz) (insB.map (·.headD []))))).callT s true record nz insB with
      | error e => rw [h1] at h; cases h
      | ok r => rw [h1] at h; cases h; exact ⟨rfl, Node.callT_len h1⟩

theorem gather_more {env : List (List ℚ)} {ins : List ℕ} (h : ∀ j ∈ ins, j < env.length) (o : List ℚ) :
    gather (env ++ [o]) ins = gather env ins := by
  unfold gather
  refine List.map_congr_left fun j hj => ?_
  rw [List.getD_eq_getElem?_getD, List.getD_eq_getElem?_getD, List.getElem?_append_left (h j hj)]

/-- the inputs a layer got in a pass are found among the tensors the pass returned -/
theorem TrainNet.forward_keeps {training record : Bool} : ∀ {net net' : TrainNet} {ss ss' : List QState} {nz : ℕ → Noise}
    {envs envs' : List (List (List ℚ))} {n : ℕ}, net.forward training record ss nz envs = .ok (net', ss', envs') →
    (∀ env ∈ envs, env.length = n) → ∀ ins : List ℕ, (∀ j ∈ ins, j < n) → envs'.map (gather · ins) = envs.map (gather · ins)
  | [], _, _, _, _, _, _, _, h, _, _, _ => by cases h; rfl
  | (t, ins0) :: rest, _, [], _, _, _, _, _, h, _, _, _ => by cases h
  | (t, ins0) :: rest, _, s :: ss, _, nz, envs, envs', n, h, hn, ins, hi => by
    unfold TrainNet.forward at h
    simp only [bind, Except.bind] at h
    cases h1 : t.forward s training (training || record) (nz 0) (envs.map (gather · ins0)) with
    | error e => rw [h1] at h; cases h
    | ok r =>
      obtain ⟨t', s', outs⟩ := r
      rw [h1] at h
      simp only at h
      cases h2 : TrainNet.forward training record rest ss (fun i => nz (i + 1)) (List.zipWith (fun env o => env ++ [o]) envs outs) with
      | error e => rw [h2] at h; cases h
      | ok r2 =>
        obtain ⟨rest', ss', envs2⟩ := r2
        rw [h2] at h
        cases h
        have hl : outs.length = envs.length := by rw [(TNode.forward_after h1).2, List.length_map]
        have hlen : ∀ env ∈ List.zipWith (fun env o => env ++ [o]) envs outs, env.length = n + 1 := by
          intro env he
          obtain ⟨i, hi, rfl⟩ := List.mem_iff_getElem.mp he
          rw [List.getElem_zipWith, List.length_append, hn _ (List.getElem_mem _)]
          rfl
        rw [TrainNet.forward_keeps h2 hlen ins fun j hj => (hi j hj).trans (Nat.lt_succ_self n)]
        refine List.ext_getElem (by simp [hl]) fun i hi1 hi2 => ?_
        rw [List.getElem_map, List.getElem_map, List.getElem_zipWith]
        refine gather_more (fun j hj => ?_) _
        rw [hn _ (List.getElem_mem _)]
        exact hi j hj

/-- layer `i` after a pass of the model, with the inputs read off the tensors the pass returned -/
theorem TrainNet.forward_layer {training record : Bool} : ∀ {net net' : TrainNet} {ss ss' : List QState} {nz : ℕ → Noise}
    {envs envs' : List (List (List ℚ))} {n : ℕ}, net.forward training record ss nz envs = .ok (net', ss', envs') →
    (∀ env ∈ envs, env.length = n) → ∀ {i : ℕ} {t : TNode} {ins : List ℕ}, net[i]? = some (t, ins) → (∀ j ∈ ins, j < n + i) →
    net'[i]? = some (t.after training (nz i) (envs'.map fun env => (gather env ins).headD []), ins)
  | [], _, _, _, _, _, _, _, _, _, _, _, _, hi, _ => by simp at hi
  | (t, ins0) :: rest, _, [], _, _, _, _, _, h, _, _, _, _, _, _ => by cases h
  | (t, ins0) :: rest, _, s :: ss, _, nz, envs, envs', n, h, hn, i, t1, ins, hi, hj => by
    have hk := TrainNet.forward_keeps h hn
    unfold TrainNet.forward at h
    simp only [bind, Except.bind] at h
    cases h1 : t.forward s training (training || record) (nz 0) (envs.map (gather · ins0)) with
    | error e => rw [h1] at h; cases h
    | ok r =>
      obtain ⟨t', s', outs⟩ := r
      rw [h1] at h
      simp only at h
      cases h2 : TrainNet.forward training record rest ss (fun i => nz (i + 1)) (List.zipWith (fun env o => env ++ [o]) envs outs) with
      | error e => rw [h2] at h; cases h
      | ok r2 =>
        obtain ⟨rest', ss', envs2⟩ := r2
        rw [h2] at h
        cases h
        cases i with
        | zero =>
          cases hi
          rw [List.getElem?_cons_zero, (TNode.forward_after h1).1, ← hk ins0 hj, List.map_map]
          rfl
        | succ i =>
          rw [List.getElem?_cons_succ] at hi ⊢
          have hl : outs.length = envs.length := by rw [(TNode.forward_after h1).2, List.length_map]
          have hlen : ∀ env ∈ List.zipWith (fun env o => env ++ [o]) envs outs, env.length = n + 1 := by
            intro env he
            obtain ⟨i, hi, rfl⟩ := List.mem_iff_getElem.mp he
            rw [List.getElem_zipWith, List.length_append, hn _ (List.getElem_mem _)]
            rfl
          exact TrainNet.forward_layer h2 hlen hi fun j h => by have := hj j h; omega

/-! ### C116 -/

/-- the model before a training pass, the random numbers of the pass and all tensors the pass computed, sample by sample -/
abbrev Training := TrainModel × Pass × List (List (List ℚ))

/-- what is noted of one step: a pass with `training=True` -/
def TrainModel.noted (m : TrainModel) : TrainOp → List Training
  | .forward p => if p.training then
      match m.net.forward true p.record m.states p.noise p.batch with
      | .ok (_, _, envs) => [(m, p, envs)]
      | .error _ => []
    else []
  | .update _ => []

/-- the passes with `training=True` of a history, with the models they started from -/
def TrainModel.trainings : TrainModel → List TrainOp → List Training
  | _, [] => []
  | m, o :: os => m.noted o ++ match m.step o with
    | .ok m' => m'.trainings os
    | .error _ => []

/-- the values layer `i`, with the inputs `ins`, had for channel `c` in a training pass, over all samples and positions: inputs times the
kernel of that moment (the quantized kernel without `scale`), with the bias of that moment -/
def Training.values (r : Training) (i : ℕ) (ins : List ℕ) (c : ℕ) : List ℚ :=
  match r.1.net[i]? with
  | some (.fused F, _) => (F.bn.chanVals (if F.bn.scale then F.bn.kernel else F.statKernel (r.2.1.noise i))
      (r.2.2.map fun env => (gather env ins).headD []) c).map (· + F.bn.bias c)
  | _ => []

theorem varL_add (l : List ℚ) (b : ℚ) : varL (l.map (· + b)) = varL l := by
  by_cases h : l = []
  · subst h; rfl
  have hp : (l.length : ℚ) ≠ 0 := by exact_mod_cast (List.length_pos_iff.mpr h).ne'
  have hm : meanL (l.map (· + b)) = meanL l + b := by
    unfold meanL
    rw [List.length_map, List.sum_map_add, List.map_id', List.map_const', List.sum_replicate, nsmul_eq_mul]
    field_simp
  unfold varL
  rw [hm, List.map_map]
  congr 2
  funext v
  simp only [Function.comp]
  ring

theorem meanL_add {l : List ℚ} (h : l ≠ []) (b : ℚ) : meanL (l.map (· + b)) = meanL l + b := by
  have hp : (l.length : ℚ) ≠ 0 := by exact_mod_cast (List.length_pos_iff.mpr h).ne'
  unfold meanL
  rw [List.length_map, List.sum_map_add, List.map_id', List.map_const', List.sum_replicate, nsmul_eq_mul]
  field_simp

/-- layer `i` after one step of the history -/
theorem TrainModel.step_layer {m m' : TrainModel} {o : TrainOp} (h : m.step o = .ok m') {n i : ℕ} {F : FusedLayer} {ins : List ℕ}
    (hn : ∀ p, o = .forward p → ∀ x ∈ p.batch, x.length = n) (hi : m.net[i]? = some (.fused F, ins)) (hj : ∀ j ∈ ins, j < n + i) :
    ∃ F' : FusedLayer, m'.net[i]? = some (.fused F', ins) ∧ F'.bn.center = F.bn.center ∧ F'.bn.scale = F.bn.scale ∧
      F'.bn.momentum = F.bn.momentum ∧ F'.bn.eps = F.bn.eps ∧
      ∀ c, F'.bn.movingMean c = (if F.bn.center then (m.trainings [o]).foldl (fun v r => F.bn.momentum * v + (1 - F.bn.momentum) *
          (match r.1.net[i]? with
          | some (.fused G, _) => meanL (G.bn.chanVals (if G.bn.scale then G.bn.kernel else G.statKernel (r.2.1.noise i))
              (r.2.2.map fun env => (gather env ins).headD []) c) + G.bn.bias c
          | _ => 0)) (F.bn.movingMean c) else F.bn.movingMean c) ∧
        F'.bn.movingVar c = (if F.bn.scale then (m.trainings [o]).foldl (fun v r => F.bn.momentum * v + (1 - F.bn.momentum) *
          varL (r.values i ins c)) (F.bn.movingVar c) else F.bn.movingVar c) := by
  cases o with
  | update vars =>
    cases h
    refine ⟨{ F with bn := F.bn.withVars ⟨(vars i).kernel, (vars i).bias, (vars i).gamma, (vars i).beta, fun _ => 0, []⟩, kfbw := (vars i).kfbw },
      ?_, rfl, rfl, rfl, rfl, fun c => ⟨?_, ?_⟩⟩
    · rw [List.getElem?_map, List.getElem?_zipIdx, hi]
      simp [TNode.assign]
    · simp [TrainModel.trainings, TrainModel.noted, TrainModel.step, BNLayer.withVars]
    · simp [TrainModel.trainings, TrainModel.noted, TrainModel.step, BNLayer.withVars]
  | forward p =>
    have hstep := h
    unfold TrainModel.step at h
    simp only [bind, Except.bind] at h
    cases h1 : m.net.forward p.training p.record m.states p.noise p.batch with
    | error e => rw [h1] at h; cases h
    | ok r =>
      obtain ⟨net', ss', envs⟩ := r
      rw [h1] at h
      cases h
      have hl := TrainNet.forward_layer h1 (hn p rfl) hi hj
      cases ht : p.training with
      | false =>
        have htr : m.trainings [.forward p] = [] := by
          simp [TrainModel.trainings, TrainModel.noted, ht, hstep]
        rw [ht] at hl
        refine ⟨F, hl, rfl, rfl, rfl, rfl, fun c => ?_⟩
        rw [htr]
        constructor <;> split_ifs <;> rfl
      | true =>
        rw [ht] at h1 hl
        have htr : m.trainings [.forward p] = [(m, p, envs)] := by
          simp [TrainModel.trainings, TrainModel.noted, ht, hstep, h1]
        rw [htr]
        refine ⟨_, hl, ?_⟩
        simp only [List.foldl_cons, List.foldl_nil, Training.values, hi, varL_add]
        unfold BNLayer.train
        dsimp only
        by_cases hc : F.bn.center = true <;> by_cases hs : F.bn.scale = true <;> simp [hc, hs]

theorem TrainModel.trainings_cons {m m' : TrainModel} {o : TrainOp} (h : m.step o = .ok m') (os : List TrainOp) :
    m.trainings (o :: os) = m.trainings [o] ++ m'.trainings os := by
  simp [TrainModel.trainings, h]

/-- layer `i` after a whole history -/
theorem TrainModel.run_layer : ∀ (ops : List TrainOp) {m m' : TrainModel}, m.run ops = .ok m' → ∀ {n i : ℕ} {F : FusedLayer} {ins : List ℕ},
    (∀ p, TrainOp.forward p ∈ ops → ∀ x ∈ p.batch, x.length = n) → m.net[i]? = some (.fused F, ins) → (∀ j ∈ ins, j < n + i) →
    ∃ F' : FusedLayer, m'.net[i]? = some (.fused F', ins) ∧ F'.bn.center = F.bn.center ∧ F'.bn.scale = F.bn.scale ∧
      F'.bn.momentum = F.bn.momentum ∧ F'.bn.eps = F.bn.eps ∧
      ∀ c, F'.bn.movingMean c = (if F.bn.center then (m.trainings ops).foldl (fun v r => F.bn.momentum * v + (1 - F.bn.momentum) *
          (match r.1.net[i]? with
          | some (.fused G, _) => meanL (G.bn.chanVals (if G.bn.scale then G.bn.kernel else G.statKernel (r.2.1.noise i))
              (r.2.2.map fun env => (gather env ins).headD []) c) + G.bn.bias c
          | _ => 0)) (F.bn.movingMean c) else F.bn.movingMean c) ∧
        F'.bn.movingVar c = (if F.bn.scale then (m.trainings ops).foldl (fun v r => F.bn.momentum * v + (1 - F.bn.momentum) *
          varL (r.values i ins c)) (F.bn.movingVar c) else F.bn.movingVar c)
  | [], m, m', h, n, i, F, ins, _, hi, _ => by
    cases h
    exact ⟨F, hi, rfl, rfl, rfl, rfl, fun c => by constructor <;> split_ifs <;> rfl⟩
  | o :: os, m, m', h, n, i, F, ins, hn, hi, hj => by
    unfold TrainModel.run at h
    simp only [bind, Except.bind] at h
    cases h1 : m.step o with
    | error e => rw [h1] at h; cases h
    | ok m1 =>
      rw [h1] at h
      obtain ⟨F1, g1, g2, g3, g4, g5, g6⟩ := TrainModel.step_layer h1 (fun p hp => hn p (by rw [hp]; simp)) hi hj
      obtain ⟨F2, k1, k2, k3, k4, k5, k6⟩ := TrainModel.run_layer os h (fun p hp => hn p (by simp [hp])) g1 hj
      refine ⟨F2, k1, k2.trans g2, k3.trans g3, k4.trans g4, k5.trans g5, fun c => ?_⟩
      rw [(k6 c).1, (k6 c).2, (g6 c).1, (g6 c).2, g2, g3, g4, TrainModel.trainings_cons h1 os, List.foldl_append, List.foldl_append]
      constructor <;> split_ifs <;> rfl

/-- a forward pass with `training=True` -/
def TrainOp.isTraining : TrainOp → Bool
  | .forward p => p.training
  | .update _ => false

/-- **C116**: take a model, any sequence of forward passes (with `training=True` or not) and of assignments to the trainable variables, and
any fused batch-normalisation layer of the model. Afterwards its moving mean and moving variance are, for every channel, the exponential
averages of their initial values and of the mean and variance of the values the layer computed in each pass with `training=True`: its
inputs in this pass times its kernel of that moment, plus its bias. There is one entry for every such pass; passes with `training=False`
and assignments do not count. Without `center` the mean, without `scale` the variance stays as it is. -/
theorem C116_statistics (m m' : TrainModel) (ops : List TrainOp) (h : m.run ops = Except.ok m') (n : ℕ)
    (hn : ∀ p, TrainOp.forward p ∈ ops → ∀ x ∈ p.batch, x.length = n) (i : ℕ) (F : FusedLayer) (ins : List ℕ)
    (hi : m.net[i]? = some (.fused F, ins)) (hj : ∀ j ∈ ins, j < n + i) :
    (m.trainings ops).length = ops.countP TrainOp.isTraining ∧
    ∃ F' : FusedLayer, m'.net[i]? = some (.fused F', ins) ∧ ∀ c, (∀ r ∈ m.trainings ops, r.values i ins c ≠ []) →
      F'.bn.movingMean c = (if F.bn.center then
        Spec.ema F.bn.momentum (F.bn.movingMean c) ((m.trainings ops).map fun r => meanL (r.values i ins c)) else F.bn.movingMean c) ∧
      F'.bn.movingVar c = (if F.bn.scale then
        Spec.ema F.bn.momentum (F.bn.movingVar c) ((m.trainings ops).map fun r => varL (r.values i ins c)) else F.bn.movingVar c) := by
  constructor
  · clear hn hi hj
    induction ops generalizing m with
    | nil => rfl
    | cons o os ih =>
      unfold TrainModel.run at h
      simp only [bind, Except.bind] at h
      cases h1 : m.step o with
      | error e => rw [h1] at h; cases h
      | ok m1 =>
        rw [h1] at h
        rw [TrainModel.trainings_cons h1 os, List.length_append, ih m1 h, List.countP_cons, Nat.add_comm]
        congr 1
        unfold TrainModel.trainings
        rw [h1]
        cases o with
        | update vars => rfl
        | forward p =>
          unfold TrainModel.step at h1
          simp only [bind, Except.bind] at h1
          cases ht : p.training with
          | false => simp [TrainOp.isTraining, ht, TrainModel.trainings, TrainModel.noted]
          | true =>
            rw [ht] at h1
            cases h2 : m.net.forward true p.record m.states p.noise p.batch with
            | error e => rw [h2] at h1; cases h1
            | ok r => simp [TrainOp.isTraining, ht, h2, TrainModel.trainings, TrainModel.noted]
  · obtain ⟨F', k1, k2, k3, k4, k5, k6⟩ := TrainModel.run_layer ops h hn hi hj
    refine ⟨F', k1, fun c hne => ⟨?_, ?_⟩⟩
    · rw [(k6 c).1, fold_ema]
      congr 2
      refine List.map_congr_left fun r hr => ?_
      have := hne r hr
      unfold Training.values at this ⊢
      split
      · next G x hG =>
        rw [hG] at this
        dsimp only at this
        exact (meanL_add (fun h => this (by rw [h]; rfl)) _).symm
      · next hG =>
        exfalso
        split at this
        · next G x hG' => exact hG _ _ hG'
        · exact this rfl
    · rw [(k6 c).2, fold_ema]

/-- **C116**, bounds: with a momentum in [0, 1] the moving variance of every fused layer stays non-negative over any training history of the
model, so the arguments of `rsqrt` are positive; and the moving mean stays in every interval that contains its initial value and all values
the layer computed in the passes with `training=True`. -/
theorem C116_bounds (m m' : TrainModel) (ops : List TrainOp) (h : m.run ops = Except.ok m') (n : ℕ)
    (hn : ∀ p, TrainOp.forward p ∈ ops → ∀ x ∈ p.batch, x.length = n) (i : ℕ) (F : FusedLayer) (ins : List ℕ)
    (hi : m.net[i]? = some (.fused F, ins)) (hj : ∀ j ∈ ins, j < n + i) (hm : 0 ≤ F.bn.momentum) (hm1 : F.bn.momentum ≤ 1)
    (hv : ∀ c, 0 ≤ F.bn.movingVar c) (he : 0 < F.bn.eps) :
    ∃ F' : FusedLayer, m'.net[i]? = some (.fused F', ins) ∧ ∀ c, 0 < F'.bn.movingVar c + F'.bn.eps ∧
      ∀ lo hi : ℚ, lo ≤ F.bn.movingMean c → F.bn.movingMean c ≤ hi →
        (∀ r ∈ m.trainings ops, r.values i ins c ≠ [] ∧ ∀ v ∈ r.values i ins c, lo ≤ v ∧ v ≤ hi) →
        lo ≤ F'.bn.movingMean c ∧ F'.bn.movingMean c ≤ hi := by
  obtain ⟨F', k1, k2, k3, k4, k5, k6⟩ := TrainModel.run_layer ops h hn hi hj
  obtain ⟨-, F'', g1, g2⟩ := C116_statistics m m' ops h n hn i F ins hi hj
  rw [k1] at g1
  cases g1
  refine ⟨F', k1, fun c => ⟨?_, fun lo hi hlo hhi hr => ?_⟩⟩
  · have : 0 ≤ F'.bn.movingVar c := by
      rw [(k6 c).2]
      split_ifs
      · generalize m.trainings ops = rs
        have h0 := hv c
        generalize F.bn.movingVar c = v at h0
        induction rs generalizing v with
        | nil => exact h0
        | cons r rs ih =>
          refine ih _ ?_
          have := mul_nonneg hm h0
          have := mul_nonneg (sub_nonneg.mpr hm1) (varL_nonneg (r.values i ins c))
          linarith
      · exact hv c
    rw [k5]
    linarith
  · rw [(g2 c fun r h => (hr r h).1).1]
    split_ifs
    · rw [← fold_ema]
      exact fold_between hm hm1 ⟨hlo, hhi⟩ fun r h => meanL_between (hr r h).1 (hr r h).2
    · exact ⟨hlo, hhi⟩

-- the hypotheses of C116 for the model of FusedNet with momentum 1/2, trained by two passes, an optimizer step and a validation pass
example (m' : TrainModel) (h : (fuModel { fuLayer with bn := { fuLayer.bn with momentum := 1 / 2 } }).run
    [.forward (fuPass (-1) 3), fuUpdate, .forward { fuPass 7 9 with training := false }, .forward (fuPass 0 4)] = Except.ok m') :=
  C116_statistics _ m' _ h 1 (by
    intro p hp x hx
    simp only [List.mem_cons, fuUpdate, reduceCtorEq, TrainOp.forward.injEq, List.not_mem_nil, or_false, false_or] at hp
    rcases hp with rfl | rfl | rfl <;> simp [fuPass] at hx <;> rcases hx with rfl | rfl <;> rfl) 1 _ [1] rfl (by simp)

-- the history runs; the values were -1, 3 and 0, 4; the mean goes 0, 1/2, 5/4 and the variance 1, 5/2, 13/4
example : (let m := fuModel { fuLayer with bn := { fuLayer.bn with momentum := 1 / 2 } }
    let ops := [.forward (fuPass (-1) 3), fuUpdate, .forward { fuPass 7 9 with training := false }, .forward (fuPass 0 4)]
    (m.trainings ops).map (fun r => r.values 1 [1] 0) = [[-1, 3], [0, 4]] ∧
    (match m.run ops with
    | .ok m' => (match (m'.net[1]? : Option (TNode × List ℕ)) with
      | some (.fused F', _) => [F'.bn.movingMean 0, F'.bn.movingVar 0]
      | _ => [])
    | .error _ => []) = [5 / 4, 13 / 4]) := by decide +kernel

end HGQ
