import Verif.Props.FusedStats

/-!
C117: forward passes change no trainable variable, except that they clip the bitwidths.
-/

namespace HGQ

/-- the trainable variables of a layer are the given ones (those it has) -/
def TNode.Holds (v : Vars) : TNode → Prop
  | .plain (.linear L) => L.kernel = v.kernel ∧ L.kfbw = v.kfbw ∧ ∀ b, L.bias = some b → b = v.bias
  | .plain _ => True
  | .dropout _ => True
  | .fused F => F.bn.kernel = v.kernel ∧ F.bn.bias = v.bias ∧ F.kfbw = v.kfbw ∧ (F.bn.scale = true → F.bn.gamma = v.gamma) ∧
      (F.bn.center = true → F.bn.beta = v.beta)

theorem TNode.assign_holds (v : Vars) (t : TNode) : (t.assign v).Holds v := by
  cases t with
  | plain nd =>
    cases nd with
    | linear L =>
      refine ⟨rfl, rfl, fun b hb => ?_⟩
      dsimp only at hb
      cases h : L.bias with
      | none => rw [h] at hb; cases hb
      | some b' => rw [h] at hb; cases hb; rfl
    | _ => trivial
  | dropout rate => trivial
  | fused F => exact ⟨rfl, rfl, rfl, fun h => if_pos h, fun h => if_pos h⟩

theorem TNode.after_holds {v : Vars} {t : TNode} (h : t.Holds v) (training : Bool) (nz : Noise) (xs : List (List ℚ)) :
    (t.after training nz xs).Holds v := by
  cases t with
  | plain nd => exact h
  | dropout rate => exact h
  | fused F =>
    cases training with
    | false => exact h
    | true =>
      unfold TNode.after TNode.Holds
      unfold TNode.Holds at h
      simp only [if_true]
      unfold BNLayer.train
      dsimp only
      by_cases hc : F.bn.center = true <;> by_cases hs : F.bn.scale = true <;> simp_all

theorem QConf.call_fbw {c : QConf} {elem : ℕ → ℕ} {s s' : QState} {noise : ℕ → ℕ → ℚ} {training record : Bool} {xs ys : List (List ℚ)}
    (h : c.call elem s noise training record xs = .ok (s', ys)) : s'.fbw = fun e => c.clip (s.fbw e) := by
  unfold QConf.call at h
  simp only [bind, Except.bind] at h
  cases h1 : c.forwardBatch elem (fun e => c.clip (s.fbw e)) noise training xs with
  | error e => rw [h1] at h; cases h
  | ok zs =>
    rw [h1] at h
    cases record <;> cases h <;> rfl

theorem Node.callT_fbw {nd : Node} {s s' : QState} {training record : Bool} {nz : Noise} {insB : List (List (List ℚ))} {outs : List (List ℚ)}
    (h : nd.callT s training record nz insB = .ok (s', outs)) : s'.fbw = nd.clipped s := by
  unfold Node.callT at h
  unfold Node.clipped
  cases hs : nd.site with
  | none => rw [hs] at h; cases h; rfl
  | some q =>
    rw [hs] at h
    simp only [bind, Except.bind] at h
    cases h1 : insB.mapM fun ins => (List.range (prodL q.outShape)).mapM (nd.preAtT training s.fbw nz ins) with
    | error e => rw [h1] at h; cases h
    | ok zs =>
      rw [h1] at h
      simp only at h
      cases h2 : q.conf.call q.elem s nz.out training record zs with
      | error e => rw [h2] at h; cases h
      | ok r =>
        rw [h2] at h
        cases h
        exact QConf.call_fbw h2

theorem TNode.forward_fbw {t t' : TNode} {s s' : QState} {training record : Bool} {nz : Noise} {insB : List (List (List ℚ))}
    {outs : List (List ℚ)} (h : t.forward s training record nz insB = .ok (t', s', outs)) :
    s'.fbw = t.infer.clipped s := by
  cases t with
  | plain nd =>
    have : TNode.forward (.plain nd) s training record nz insB = (do
        let (s', outs) ← nd.callT s training record nz insB
        return (.plain nd, s', outs)) := by cases training <;> rfl
    rw [this] at h
    simp only [bind, Except.bind] at h
    cases h1 : nd.callT s training record nz insB with
    | error e => rw [h1] at h; cases h
    | ok r => rw [h1] at h; cases h; exact Node.callT_fbw h1
  | dropout rate => cases training <;> cases h <;> rfl
  | fused F =>
    cases training with
    | false =>
      unfold TNode.forward at h
      simp only [bind, Except.bind] at h
      cases h1 : (TNode.fused F).infer.callT s false record nz insB with
      | error e => rw [h1] at h; cases h
      | ok r => rw [h1] at h; cases h; exact Node.callT_fbw h1
    | true =>
      unfold TNode.forward FusedLayer.trainPass at h
      simp only [bind, Except.bind] at h
      cases h1 : (Node.linear (F.trainLin (F.bn.train (F.statKernel nz) (insB.map (·.headD []))))).callT s true record nz insB with
      | error e => rw [h1] at h; cases h
      | ok r =>
        rw [h1] at h
        cases h
        have := Node.callT_fbw h1
        rw [this]
        unfold Node.clipped
        rfl

/-- the quantizer of a layer's outputs is fixed -/
theorem TNode.after_clipped (t : TNode) (training : Bool) (nz : Noise) (xs : List (List ℚ)) (s : QState) :
    (t.after training nz xs).infer.clipped s = t.infer.clipped s := by
  cases t with
  | plain nd => rfl
  | dropout rate => rfl
  | fused F => cases training <;> rfl

theorem Node.clipped_idem (nd : Node) {s s' : QState} (h : s'.fbw = nd.clipped s) : nd.clipped s' = nd.clipped s := by
  unfold Node.clipped at *
  cases hs : nd.site with
  | none => rw [hs] at h; exact h
  | some q =>
    rw [hs] at h
    funext e
    dsimp only at h ⊢
    rw [h]
    exact q.conf.clip_idem _

/-- every layer and state of a pass, before and after -/
theorem TrainNet.forward_all {training record : Bool} : ∀ {net net' : TrainNet} {ss ss' : List QState} {nz : ℕ → Noise}
    {envs envs' : List (List (List ℚ))}, net.forward training record ss nz envs = .ok (net', ss', envs') →
    ∀ (i : ℕ) (t' : TNode) (ins : List ℕ), net'[i]? = some (t', ins) →
      ∃ t s s' xs, net[i]? = some (t, ins) ∧ ss[i]? = some s ∧ ss'[i]? = some s' ∧ t' = t.after training (nz i) xs ∧ s'.fbw = t.infer.clipped s
  | [], _, _, _, _, _, _, h, _, _, _, hi => by cases h; simp at hi
  | (t, ins0) :: rest, _, [], _, _, _, _, h, _, _, _, _ => by cases h
  | (t, ins0) :: rest, _, s :: ss, _, nz, envs, envs', h, i, t1, ins, hi => by
    unfold TrainNet.forward at h
    simp only [bind, Except.bind] at h
    cases h1 : t.forward s training (training || record) (nz 0) (envs.map (gather · ins0)) with
    | error e => rw [h1] at h; cases h
    | ok r =>
      obtain ⟨t', s', outs⟩ := r
      rw [h1] at h
      simp only at h
      cases h2 : TrainNet.forward training record rest ss (fun i => nz (i + 1)) (List.zipWith (fun env o => env ++ [o]) envs outs) with
      | error e => rw [h2] at h; cases h
      | ok r2 =>
        obtain ⟨rest', ss', envs2⟩ := r2
        rw [h2] at h
        cases h
        cases i with
        | zero => cases hi; exact ⟨t, s, s', _, rfl, rfl, rfl, (TNode.forward_after h1).1, TNode.forward_fbw h1⟩
        | succ i => exact TrainNet.forward_all h2 i t1 ins hi

theorem TrainModel.run_append (m : TrainModel) (a b : List TrainOp) : m.run (a ++ b) = (do
    let m' ← m.run a
    m'.run b) := by
  induction a generalizing m with
  | nil => rfl
  | cons o a ih =>
    have e : ∀ l, m.run (o :: l) = (do
        let m' ← m.step o
        m'.run l) := fun l => rfl
    rw [List.cons_append, e, e]
    cases m.step o with
    | error e => rfl
    | ok m1 => exact ih m1

/-- **C117**: after any history, assign values to the trainable variables of every layer, and then call the model any number of times, with
`training=True` or not. Every layer still holds exactly the values assigned: kernel, bias, `bn_gamma` (with `scale`), `bn_beta` (with
`center`) and the bitwidths of the kernel. The bitwidths of the outputs are the values assigned, clipped to the range of the quantizer as soon
as the model was called. -/
theorem C117_variables (m m' : TrainModel) (ops : List TrainOp) (vars : ℕ → Vars) (ps : List Pass)
    (h : m.run (ops ++ .update vars :: ps.map TrainOp.forward) = Except.ok m') (i : ℕ) (t : TNode) (ins : List ℕ)
    (hi : m'.net[i]? = some (t, ins)) :
    t.Holds (vars i) ∧ ∀ s, m'.states[i]? = some s → ∀ e, s.fbw e =
      match ps, t.infer.site with
      | _ :: _, some q => q.conf.clip ((vars i).fbw e)
      | _, _ => (vars i).fbw e := by
  rw [TrainModel.run_append] at h
  simp only [bind, Except.bind] at h
  cases h0 : m.run ops with
  | error e => rw [h0] at h; cases h
  | ok m0 =>
    rw [h0] at h
    dsimp only at h
    unfold TrainModel.run at h
    simp only [bind, Except.bind, TrainModel.step] at h
    -- after the assignment
    have start : ∀ (i : ℕ) (t : TNode) (ins : List ℕ), (m0.net.zipIdx.map fun ti => (ti.1.1.assign (vars ti.2), ti.1.2))[i]? = some (t, ins) → t.Holds (vars i) := by
      intro i t ins hi
      rw [List.getElem?_map, List.getElem?_zipIdx] at hi
      cases hn : m0.net[i]? with
      | none => rw [hn] at hi; cases hi
      | some ti =>
        rw [hn] at hi
        simp only [Option.map_some, Nat.zero_add, Option.some.injEq, Prod.mk.injEq] at hi
        rw [← hi.1]
        exact TNode.assign_holds _ _
    have starts : ∀ (i : ℕ) (s : QState), (m0.states.zipIdx.map fun si => { si.1 with fbw := (vars si.2).fbw })[i]? = some s → s.fbw = (vars i).fbw := by
      intro i s hs
      rw [List.getElem?_map, List.getElem?_zipIdx] at hs
      cases hn : m0.states[i]? with
      | none => rw [hn] at hs; cases hs
      | some s0 =>
        rw [hn] at hs
        simp only [Option.map_some, Nat.zero_add, Option.some.injEq] at hs
        rw [← hs]
    -- the passes
    have key : ∀ (ps : List Pass) (m1 : TrainModel) (cl : Bool), m1.run (ps.map TrainOp.forward) = Except.ok m' →
        (∀ (i : ℕ) (t : TNode) (ins : List ℕ), m1.net[i]? = some (t, ins) → t.Holds (vars i) ∧ ∀ s, m1.states[i]? = some s →
          s.fbw = if cl then t.infer.clipped ⟨(vars i).fbw, fun _ => ⊤, fun _ => ⊥⟩ else (vars i).fbw) →
        ∀ (i : ℕ) (t : TNode) (ins : List ℕ), m'.net[i]? = some (t, ins) → t.Holds (vars i) ∧ ∀ s, m'.states[i]? = some s →
          s.fbw = if cl || !ps.isEmpty then t.infer.clipped ⟨(vars i).fbw, fun _ => ⊤, fun _ => ⊥⟩ else (vars i).fbw := by
      intro ps
      induction ps with
      | nil =>
        intro m1 cl hrun hinv
        cases hrun
        simpa using hinv
      | cons p ps ih =>
        intro m1 cl hrun hinv i t ins hi
        rw [List.map_cons] at hrun
        unfold TrainModel.run at hrun
        simp only [bind, Except.bind, TrainModel.step] at hrun
        cases hf : m1.net.forward p.training p.record m1.states p.noise p.batch with
        | error e => rw [hf] at hrun; cases hrun
        | ok r =>
          obtain ⟨net', ss', envs⟩ := r
          rw [hf] at hrun
          have := ih ⟨net', ss'⟩ true hrun (fun i t' ins hi => by
            obtain ⟨t, s, s', xs, g1, g2, g3, g4, g5⟩ := TrainNet.forward_all hf i t' ins hi
            obtain ⟨k1, k2⟩ := hinv i t ins g1
            refine ⟨by rw [g4]; exact TNode.after_holds k1 _ _ _, fun s1 hs1 => ?_⟩
            have : s1 = s' := Option.some.inj (hs1.symm.trans g3)
            rw [this, g5, if_pos rfl, g4, TNode.after_clipped]
            have k3 := k2 s g2
            cases cl with
            | false =>
              rw [if_neg (by simp)] at k3
              unfold Node.clipped
              cases t.infer.site <;> simp only [k3]
            | true =>
              rw [if_pos rfl] at k3
              exact t.infer.clipped_idem k3) i t ins hi
          simpa using this
    obtain ⟨k1, k2⟩ := key ps ⟨_, _⟩ false h (fun i t ins hi => ⟨start i t ins hi, fun s hs => by rw [starts i s hs]; rfl⟩) i t ins hi
    refine ⟨k1, fun s hs e => ?_⟩
    rw [k2 s hs]
    cases ps with
    | nil => rfl
    | cons p ps =>
      simp only [Bool.false_or, List.isEmpty_cons, Bool.not_false, if_true]
      unfold Node.clipped
      cases t.infer.site <;> rfl

-- a history with an assignment and two passes runs; the fused layer holds gamma 2, beta 1 and the bitwidth 30, clipped to 20
example : (match (fuModel fuLayer).run ([.forward (fuPass (-1) 1)] ++ fuUpdate :: [fuPass 0 4, { fuPass 1 2 with training := false }].map TrainOp.forward) with
    | .ok m' => (match (m'.net[1]? : Option (TNode × List ℕ)) with
      | some (.fused F', _) => [F'.bn.kernel 0, F'.bn.gamma 0, F'.bn.beta 0] ++ m'.states.map fun s => s.fbw 0
      | _ => [])
    | .error _ => []) = [1, 2, 1, 20, 20] := by decide +kernel

end HGQ
