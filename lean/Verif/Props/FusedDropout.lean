import Verif.Props.FusedVars

/-!
C118: dropout layers in a model that is trained.
-/

namespace HGQ

/-- tensors computed before a pass through the remaining layers are kept -/
theorem TrainNet.forward_env {training record : Bool} : ∀ {net net' : TrainNet} {ss ss' : List QState} {nz : ℕ → Noise}
    {envs envs' : List (List (List ℚ))} {n : ℕ}, net.forward training record ss nz envs = .ok (net', ss', envs') →
    (∀ env ∈ envs, env.length = n) → ∀ j < n, envs'.map (·.getD j []) = envs.map (·.getD j []) := by
  intro net net' ss ss' nz envs envs' n h hn j hj
  have := TrainNet.forward_keeps h hn [j] (by simpa using hj)
  have := congrArg (List.map fun l : List (List ℚ) => l.headD []) this
  simpa [List.map_map, Function.comp_def, gather] using this

/-- what layer `i` computed in a pass, with inputs and outputs read off the tensors the pass returned -/
theorem TrainNet.forward_out {training record : Bool} : ∀ {net net' : TrainNet} {ss ss' : List QState} {nz : ℕ → Noise}
    {envs envs' : List (List (List ℚ))} {n : ℕ}, net.forward training record ss nz envs = .ok (net', ss', envs') →
    (∀ env ∈ envs, env.length = n) → ∀ {i : ℕ} {t : TNode} {ins : List ℕ}, net[i]? = some (t, ins) → (∀ j ∈ ins, j < n + i) →
    ∃ s t' s', t.forward s training (training || record) (nz i) (envs'.map (gather · ins)) = .ok (t', s', envs'.map (·.getD (n + i) []))
  | [], _, _, _, _, _, _, _, _, _, _, _, _, hi, _ => by simp at hi
  | (t, ins0) :: rest, _, [], _, _, _, _, _, h, _, _, _, _, _, _ => by cases h
  | (t, ins0) :: rest, _, s :: ss, _, nz, envs, envs', n, h, hn, i, t1, ins, hi, hj => by
    have hk := TrainNet.forward_keeps h hn
    unfold TrainNet.forward at h
    simp only [bind, Except.bind] at h
    cases h1 : t.forward s training (training || record) (nz 0) (envs.map (gather · ins0)) with
    | error e => rw [h1] at h; cases h
    | ok r =>
      obtain ⟨t', s', outs⟩ := r
      rw [h1] at h
      simp only at h
      cases h2 : TrainNet.forward training record rest ss (fun i => nz (i + 1)) (List.zipWith (fun env o => env ++ [o]) envs outs) with
      | error e => rw [h2] at h; cases h
      | ok r2 =>
        obtain ⟨rest', ss', envs2⟩ := r2
        rw [h2] at h
        cases h
        have hl : outs.length = envs.length := by rw [(TNode.forward_after h1).2, List.length_map]
        have hlen : ∀ env ∈ List.zipWith (fun env o => env ++ [o]) envs outs, env.length = n + 1 := by
          intro env he
          obtain ⟨i, hi, rfl⟩ := List.mem_iff_getElem.mp he
          rw [List.getElem_zipWith, List.length_append, hn _ (List.getElem_mem _)]
          rfl
        cases i with
        | zero =>
          cases hi
          refine ⟨s, t', s', ?_⟩
          rw [hk ins0 hj, h1, Nat.add_zero, TrainNet.forward_env h2 hlen n (Nat.lt_succ_self n)]
          congr 3
          refine List.ext_getElem (by simp [hl]) fun b h1 h2 => ?_
          have hb : b < envs.length := by omega
          rw [List.getElem_map, List.getElem_zipWith, List.getD_eq_getElem?_getD,
            List.getElem?_append_right (by rw [hn _ (List.getElem_mem _)]), hn _ (List.getElem_mem _), Nat.sub_self]
          rfl
        | succ i =>
          rw [List.getElem?_cons_succ] at hi
          have := TrainNet.forward_out h2 hlen hi fun j h => by have := hj j h; omega
          rwa [show n + 1 + i = n + (i + 1) by omega] at this

/-- a dropout layer stays what it is -/
theorem TrainModel.run_dropout : ∀ (ops : List TrainOp) {m m' : TrainModel}, m.run ops = .ok m' → ∀ {i : ℕ} {rate : ℚ} {ins : List ℕ},
    m'.net[i]? = some (.dropout rate, ins) ↔ m.net[i]? = some (.dropout rate, ins)
  | [], m, m', h, i, rate, ins => by cases h; rfl
  | o :: os, m, m', h, i, rate, ins => by
    unfold TrainModel.run at h
    simp only [bind, Except.bind] at h
    cases h1 : m.step o with
    | error e => rw [h1] at h; cases h
    | ok m1 =>
      rw [h1] at h
      rw [TrainModel.run_dropout os h]
      cases o with
      | update vars =>
        cases h1
        rw [List.getElem?_map, List.getElem?_zipIdx]
        cases hn : m.net[i]? with
        | none => simp
        | some ti =>
          obtain ⟨t, ins'⟩ := ti
          cases t with
          | plain nd => cases nd <;> simp [TNode.assign]
          | fused F => simp [TNode.assign]
          | dropout r => simp [TNode.assign]
      | forward p =>
        unfold TrainModel.step at h1
        simp only [bind, Except.bind] at h1
        cases h2 : m.net.forward p.training p.record m.states p.noise p.batch with
        | error e => rw [h2] at h1; cases h1
        | ok r =>
          obtain ⟨net', ss', envs⟩ := r
          rw [h2] at h1
          cases h1
          have hlen : net'.length = m.net.length := by
            have : ∀ {net net' : TrainNet} {ss ss' : List QState} {nz : ℕ → Noise} {envs envs' : List (List (List ℚ))},
                net.forward p.training p.record ss nz envs = .ok (net', ss', envs') → net'.length = net.length := by
              intro net
              induction net with
              | nil => intro net' ss ss' nz envs envs' h; cases h; rfl
              | cons a net ih =>
                intro net' ss ss' nz envs envs' h
                cases ss with
                | nil => cases h
                | cons s ss =>
                  unfold TrainNet.forward at h
                  simp only [bind, Except.bind] at h
                  cases h1 : a.1.forward s p.training (p.training || p.record) (nz 0) (envs.map (gather · a.2)) with
                  | error e => rw [h1] at h; cases h
                  | ok r =>
                    rw [h1] at h
                    simp only at h
                    cases h2 : TrainNet.forward p.training p.record net ss (fun i => nz (i + 1)) (List.zipWith (fun env o => env ++ [o]) envs r.2.2) with
                    | error e => rw [h2] at h; cases h
                    | ok r2 => rw [h2] at h; cases h; rw [List.length_cons, List.length_cons, ih h2]
            exact this h2
          cases hn : net'[i]? with
          | none =>
            have : m.net[i]? = none := by rw [List.getElem?_eq_none_iff] at hn ⊢; omega
            rw [this]
          | some ti =>
            obtain ⟨t', ins'⟩ := ti
            obtain ⟨t, s, s', xs, e1, -, -, e2, -⟩ := TrainNet.forward_all h2 i t' ins' hn
            rw [e1, e2]
            cases t with
            | plain nd => simp [TNode.after]
            | fused F => cases p.training <;> simp [TNode.after]
            | dropout r => simp [TNode.after]

/-- **C118**: take a model with a dropout layer, after any history of passes and assignments, and call it once more. The layer still has its rate. With
`training=False` its output is its input. With `training=True` every value of every sample is treated by itself: it becomes 0 if its own random
number is below the rate, and is divided by `1 - rate` otherwise. -/
theorem C118_dropout (m m' m'' : TrainModel) (ops : List TrainOp) (h : m.run ops = Except.ok m') (p : Pass) (envs : List (List (List ℚ)))
    (hp : m'.net.forward p.training p.record m'.states p.noise p.batch = Except.ok (m''.net, m''.states, envs)) (n : ℕ)
    (hn : ∀ x ∈ p.batch, x.length = n) (i j : ℕ) (rate : ℚ) (hi : m.net[i]? = some (.dropout rate, [j])) (hj : j < n + i) :
    m''.net[i]? = some (.dropout rate, [j]) ∧ ∀ (b : ℕ) (env : List (List ℚ)), envs[b]? = some env →
      (env.getD (n + i) []).length = (env.getD j []).length ∧
      ∀ (q : ℕ) (v : ℚ), (env.getD j [])[q]? = some v → (env.getD (n + i) [])[q]? =
        some (if p.training then (if (p.noise i).out b q < rate then 0 else v / (1 - rate)) else v) := by
  have hi' := (TrainModel.run_dropout ops h).mpr hi
  have hstep : m'.run [.forward p] = .ok m'' := by
    unfold TrainModel.run TrainModel.step
    simp only [hp, bind, Except.bind]
    rfl
  refine ⟨(TrainModel.run_dropout [.forward p] hstep).mpr hi', fun b env hb => ?_⟩
  obtain ⟨s, t', s', hf⟩ := TrainNet.forward_out hp hn hi' (by simpa using hj)
  have key : (env.getD (n + i) []) = if p.training then (env.getD j []).mapIdx fun q v => if (p.noise i).out b q < rate then 0 else v / (1 - rate)
      else env.getD j [] := by
    cases ht : p.training with
    | false =>
      rw [ht] at hf
      have e : (envs.map (gather · [j])).map (fun ins : List (List ℚ) => ins.headD []) = envs.map (·.getD (n + i) []) := by
        have : TNode.forward (.dropout rate) s false (false || p.record) (p.noise i) (envs.map (gather · [j])) =
            .ok (.dropout rate, s, (envs.map (gather · [j])).map fun ins => ins.headD []) := rfl
        rw [this] at hf
        exact (Prod.mk.inj (Prod.mk.inj (Except.ok.inj hf)).2).2
      have := congrArg (fun l : List (List ℚ) => l[b]?) e
      simp only [List.getElem?_map, hb, Option.map_some, Option.some.injEq] at this
      rw [← this]
      rfl
    | true =>
      rw [ht] at hf
      have e : dropOut rate (p.noise i).out ((envs.map (gather · [j])).map (·.headD [])) = envs.map (·.getD (n + i) []) := by
        have : TNode.forward (.dropout rate) s true (true || p.record) (p.noise i) (envs.map (gather · [j])) =
            .ok (.dropout rate, s, dropOut rate (p.noise i).out ((envs.map (gather · [j])).map (·.headD []))) := rfl
        rw [this] at hf
        exact (Prod.mk.inj (Prod.mk.inj (Except.ok.inj hf)).2).2
      have := congrArg (fun l : List (List ℚ) => l[b]?) e
      simp only [dropOut, List.getElem?_mapIdx, List.getElem?_map, hb, Option.map_some, Option.some.injEq] at this
      rw [← this]
      rfl
  rw [key]
  cases p.training with
  | false => exact ⟨rfl, fun q v hv => hv⟩
  | true =>
    refine ⟨by simp, fun q v hv => ?_⟩
    simp only [if_true]
    rw [List.getElem?_mapIdx, hv]
    rfl

-- a training pass on the samples 4 and 1 that drops the first: the tensors behind the dropout layer are 0 and 2
theorem fuDrop_pass : (match fuDrop.net.forward true false fuDrop.states fuDropPass.noise fuDropPass.batch with
    | .ok r => some r.2.2
    | .error _ => none) = some [[[4], [4], [0], [0]], [[1], [1], [2], [2]]] := by decide +kernel

example : ∃ m'' : TrainModel, m''.net[1]? = some (.dropout (1 / 2), [1]) := by
  have h := fuDrop_pass
  cases hf : fuDrop.net.forward true false fuDrop.states fuDropPass.noise fuDropPass.batch with
  | error e => rw [hf] at h; cases h
  | ok r =>
    refine ⟨⟨r.1, r.2.1⟩, (C118_dropout fuDrop fuDrop ⟨r.1, r.2.1⟩ [] rfl fuDropPass r.2.2 hf 1 ?_ 1 1 (1 / 2) rfl (by decide)).1⟩
    intro x hx
    simp only [fuDropPass, List.mem_cons, List.not_mem_nil, or_false] at hx
    rcases hx with rfl | rfl <;> rfl

end HGQ
