import Verif.Model.FusedNet
import Verif.Spec.FusedNet
import Verif.Props.Net
import Verif.Props.QuantError
import Verif.Props.TrainNet
import Verif.Props.BatchNorm

namespace HGQ
open Spec

/-! ### forward passes succeed -/

/-- the rounding strategies of quantizer/quantizer.py lines 16-38 -/
def QConf.Known (c : QConf) : Prop := c.strategy = 0 ∨ c.strategy = 1 ∨ c.strategy = 2 ∨ c.strategy = 3

theorem forward_known {c : QConf} (h : c.Known) (f x n : ℚ) (training : Bool) : ∃ y, c.forward f x n training = .ok y := by
  cases training with
  | false => exact ⟨_, C11_inference_total c f x n⟩
  | true =>
    unfold QConf.forward
    have : ∃ r, qRound (x * c.scale f true) (c.effStrategy true) n = .ok r := by
      unfold QConf.effStrategy qRound
      rcases h with h | h | h | h <;> simp [h]
    obtain ⟨r, hr⟩ := this
    simp only [hr]
    exact ⟨_, rfl⟩

theorem mapM_exists {α β : Type} {f : α → Except String β} : ∀ {l : List α}, (∀ a ∈ l, ∃ b, f a = .ok b) → ∃ r, l.mapM f = .ok r
  | [], _ => ⟨[], rfl⟩
  | a :: l, h => by
    obtain ⟨b, hb⟩ := h a (by simp)
    obtain ⟨r, hr⟩ := mapM_exists (l := l) fun x hx => h x (by simp [hx])
    exact ⟨b :: r, by rw [List.mapM_cons, hb, hr]; rfl⟩

/-- all quantizers of the layer use a known strategy -/
structure Node.Known (nd : Node) : Prop where
  out : ∀ q, nd.site = some q → q.conf.Known
  weight : ∀ L, nd = .linear L → L.kq.Known

theorem preT_known {L : LinLayer} (h : (Node.linear L).Known) (training : Bool) (fbw : ℕ → ℚ) (nz : Noise) (x : List ℚ) (p : ℕ) :
    ∃ z, L.preT training fbw nz x p = .ok z := by
  unfold LinLayer.preT
  obtain ⟨ts, ht⟩ := mapM_exists (l := L.taps p) (f := fun ij => do
    let k ← L.kq.forward (L.kq.clip (L.kfbw ij.2)) (L.kernel ij.2) (nz.kernel ij.2) training
    return x.getD ij.1 0 * k) fun ij _ => by
      obtain ⟨k, hk⟩ := forward_known (h.weight L rfl) (L.kq.clip (L.kfbw ij.2)) (L.kernel ij.2) (nz.kernel ij.2) training
      exact ⟨_, by rw [hk]; rfl⟩
  rw [ht]
  have hb : ∃ b, L.biasT training fbw nz (L.chan p) = .ok b := by
    unfold LinLayer.biasT
    cases L.bias with
    | none => exact ⟨0, rfl⟩
    | some b => exact forward_known (h.out _ rfl) _ _ _ _
  obtain ⟨b, hb⟩ := hb
  rw [hb]
  exact ⟨_, rfl⟩

theorem call_known {c : QConf} (h : c.Known) (elem : ℕ → ℕ) (s : QState) (noise : ℕ → ℕ → ℚ) (training record : Bool) (xs : List (List ℚ)) :
    ∃ s' ys, c.call elem s noise training record xs = .ok (s', ys) ∧ s'.fbw = fun e => c.clip (s.fbw e) := by
  unfold QConf.call QConf.forwardBatch
  obtain ⟨ys, hy⟩ := mapM_exists (l := xs.zipIdx) (f := fun sb : List ℚ × ℕ => sb.1.zipIdx.mapM fun vp =>
    c.forward (c.clip (s.fbw (elem vp.2))) vp.1 (noise sb.2 vp.2) training) fun sb _ => mapM_exists fun vp _ => forward_known h _ _ _ _
  simp only [hy, bind, Except.bind]
  cases record
  · exact ⟨_, _, rfl, rfl⟩
  · exact ⟨_, _, rfl, rfl⟩

/-- the bitwidths after a call -/
def Node.clipped (nd : Node) (s : QState) : ℕ → ℚ :=
  match nd.site with
  | none => s.fbw
  | some q => fun e => q.conf.clip (s.fbw e)

theorem Node.callT_known {nd : Node} (h : nd.Known) (s : QState) (training record : Bool) (nz : Noise) (insB : List (List (List ℚ))) :
    ∃ s' outs, nd.callT s training record nz insB = .ok (s', outs) ∧ s'.fbw = nd.clipped s := by
  unfold Node.callT Node.clipped
  cases hs : nd.site with
  | none => exact ⟨_, _, rfl, rfl⟩
  | some q =>
    have hp : ∀ ins p, ∃ z, nd.preAtT training s.fbw nz ins p = .ok z := by
      intro ins p
      cases nd with
      | linear L => exact preT_known h training s.fbw nz _ p
      | quantize | activation | add | passive => exact ⟨_, rfl⟩
    obtain ⟨zs, hz⟩ := mapM_exists (l := insB) (f := fun ins => (List.range (prodL q.outShape)).mapM (nd.preAtT training s.fbw nz ins))
      fun ins _ => mapM_exists fun p _ => hp ins p
    obtain ⟨s', ys, hy, hf⟩ := call_known (h.out q hs) q.elem s nz.out training record zs
    simp only [hz, hy, bind, Except.bind]
    exact ⟨_, _, rfl, hf⟩

/-! ### what stays fixed in training -/

/-- A layer as its configuration fixes it: the quantizer broadcasts against the output, bitwidths are clipped to a range starting at -32
or above (at 0 or above for softmax, sigmoid and tanh), channels are located consistently (or there is a single bitwidth, or no bias),
and softmax, sigmoid and tanh have their ranges. -/
structure Node.Configured (nd : Node) : Prop where
  shape : ∀ q, nd.site = some q → Compat q.outShape q.qShape
  range : ∀ q, nd.site = some q → ∃ lo hi : ℚ, q.conf.bwClip = some (lo, hi) ∧ -32 ≤ lo
  loc : ∀ L, nd = .linear L → L.jitLoc = L.chLoc ∨ (prodL L.qShape = 1 ∧ L.qShape ≠ []) ∨ L.bias = none
  act : ∀ kind φ q, nd = .activation kind φ q → ActOk kind φ ∧ (kind ≠ .other → ∃ lo hi : ℚ, q.conf.bwClip = some (lo, hi) ∧ 0 ≤ lo)

theorem lo_le_qclip {c : QConf} {lo hi : ℚ} (h : c.bwClip = some (lo, hi)) (v : ℚ) : lo ≤ c.clip v := by
  unfold QConf.clip
  rw [h]
  exact le_max_right _ _

theorem Node.Configured.wf {nd : Node} (h : nd.Configured) {s s' : QState} (hf : s'.fbw = nd.clipped s) : nd.WF s' where
  shape := h.shape
  clip := fun q hs e => by
    rw [hf]
    unfold Node.clipped
    rw [hs]
    exact q.conf.clip_idem _
  fb := fun q hs e => by
    obtain ⟨lo, hi, h1, h2⟩ := h.range q hs
    rw [hf]
    unfold Node.clipped
    rw [hs]
    exact h2.trans (lo_le_qclip h1 _)
  loc := h.loc
  act := fun kind φ q hn => by
    obtain ⟨h1, h2⟩ := h.act kind φ q hn
    refine ⟨h1, fun hk e => ?_⟩
    obtain ⟨lo, hi, h3, h4⟩ := h2 hk
    rw [hf]
    subst hn
    change 0 ≤ tfRound (q.conf.clip (s.fbw e))
    have := tfRound_mono (h4.trans (lo_le_qclip h3 (s.fbw e)))
    rwa [show tfRound (0 : ℚ) = 0 by exact_mod_cast tfRound_int 0] at this

/-- what `postBuild` sets up: without `center` there is no mean and no `bn_beta`, without `use_bias` no `center` -/
structure BNLayer.Built (b : BNLayer) : Prop where
  bias : b.center = true → b.useBias = true
  center : b.center = false → b.beta = (fun _ => 0) ∧ b.movingMean = fun _ => 0
  scale : b.scale = false → b.gamma = (fun _ => 1) ∧ b.movingVar = fun _ => 1

theorem BNLayer.postBuild_built (b : BNLayer) : b.postBuild.Built := by
  unfold BNLayer.postBuild
  constructor <;> (cases h1 : b.center <;> cases h2 : b.useBias <;> cases h3 : b.scale <;> simp [h1, h2, h3])

theorem BNLayer.Built.train {b : BNLayer} (h : b.Built) (qk : ℕ → ℚ) (xs : List (List ℚ)) : (b.train qk xs).layer.Built := by
  have hb := h.bias
  have hc := h.center
  have hs := h.scale
  unfold BNLayer.train
  constructor <;> (cases h1 : b.center <;> cases h3 : b.scale <;> simp_all)

theorem BNLayer.Built.vars {b : BNLayer} (h : b.Built) (s : BNStep) : (b.withVars s).Built := by
  have hb := h.bias
  have hc := h.center
  have hs := h.scale
  unfold BNLayer.withVars
  constructor <;> (cases h1 : b.center <;> cases h3 : b.scale <;> simp_all)

/-- a layer that was built with known strategies and a sound configuration -/
structure TNode.Good (t : TNode) : Prop where
  conf : t.infer.Configured
  known : t.infer.Known
  built : ∀ F, t = .fused F → F.bn.Built

theorem FusedLayer.good_congr {F G : FusedLayer} (h : (TNode.fused F).Good) (h1 : G.bn.outShape = F.bn.outShape) (h2 : G.qShape = F.qShape)
    (h3 : G.bn.chLoc = F.bn.chLoc) (h4 : G.jitLoc = F.jitLoc) (h5 : G.kq = F.kq) (h6 : G.paq = F.paq)
    (h7 : G.bn.useBias = F.bn.useBias) (h8 : G.bn.Built) : (TNode.fused G).Good where
  conf :=
    { shape := fun q hq => by
        cases hq
        have := h.conf.shape _ rfl
        change Compat G.bn.outShape G.qShape
        rw [h1, h2]
        exact this
      range := fun q hq => by
        cases hq
        have := h.conf.range _ rfl
        change ∃ lo hi : ℚ, G.paq.bwClip = some (lo, hi) ∧ -32 ≤ lo
        rw [h6]
        exact this
      loc := fun L hL => by
        cases hL
        have := h.conf.loc _ rfl
        simp only [FusedLayer.infer] at this ⊢
        rw [h2, h3, h4, h7]
        refine this.imp id (Or.imp id fun h => ?_)
        split_ifs at h ⊢ with hu
        rfl
      act := fun _ _ _ hn => by cases hn }
  known :=
    { out := fun q hq => by
        cases hq
        have := h.known.out _ rfl
        change G.paq.Known
        rw [h6]
        exact this
      weight := fun L hL => by
        cases hL
        have := h.known.weight _ rfl
        change G.kq.Known
        rw [h5]
        exact this }
  built := fun F hF => by cases hF; exact h8

theorem BNLayer.train_shape (b : BNLayer) (qk : ℕ → ℚ) (xs : List (List ℚ)) : (b.train qk xs).layer.outShape = b.outShape ∧
    (b.train qk xs).layer.chLoc = b.chLoc ∧ (b.train qk xs).layer.useBias = b.useBias ∧ (b.train qk xs).layer.taps = b.taps := by
  unfold BNLayer.train
  cases b.center <;> cases b.scale <;> exact ⟨rfl, rfl, rfl, rfl⟩

theorem TNode.forward_good {t : TNode} (h : t.Good) (s : QState) (training record : Bool) (nz : Noise) (insB : List (List (List ℚ))) :
    ∃ t' s' outs, t.forward s training record nz insB = .ok (t', s', outs) ∧ t'.Good ∧ s'.fbw = t.infer.clipped s ∧ t'.infer.WF s' := by
  have other : ∀ tr, ∃ s' outs, (do
      let (s', outs) ← t.infer.callT s tr record nz insB
      return (t, s', outs) : Except String (TNode × QState × List (List ℚ))) = .ok (t, s', outs) ∧ s'.fbw = t.infer.clipped s := by
    intro tr
    obtain ⟨s', outs, h1, h2⟩ := Node.callT_known h.known s tr record nz insB
    exact ⟨s', outs, by rw [h1]; rfl, h2⟩
  cases t with
  | plain nd =>
    obtain ⟨s', outs, h1, h2⟩ := other training
    exact ⟨_, s', outs, by cases training <;> exact h1, h, h2, h.conf.wf h2⟩
  | dropout rate =>
    cases training with
    | false =>
      obtain ⟨s', outs, h1, h2⟩ := other false
      exact ⟨_, s', outs, h1, h, h2, h.conf.wf h2⟩
    | true => exact ⟨_, s, _, rfl, h, rfl, h.conf.wf (s := s) rfl⟩
  | fused F =>
    cases training with
    | false =>
      obtain ⟨s', outs, h1, h2⟩ := other false
      exact ⟨_, s', outs, h1, h, h2, h.conf.wf h2⟩
    | true =>
      obtain ⟨a1, a2, a3, -⟩ := F.bn.train_shape (F.statKernel nz) (insB.map (·.headD []))
      have hk : (Node.linear (F.trainLin (F.bn.train (F.statKernel nz) (insB.map (·.headD []))))).Known :=
        ⟨fun q hq => by cases hq; exact h.known.out _ rfl, fun L hL => by cases hL; exact h.known.weight F.infer rfl⟩
      obtain ⟨s', outs, h1, h2⟩ := Node.callT_known hk s true record nz insB
      have hg : (TNode.fused { F with bn := (F.bn.train (F.statKernel nz) (insB.map (·.headD []))).layer }).Good :=
        FusedLayer.good_congr h a1 rfl a2 rfl rfl rfl a3 ((h.built F rfl).train _ _)
      refine ⟨_, s', outs, ?_, hg, h2, hg.conf.wf (s := s) ?_⟩
      · unfold TNode.forward FusedLayer.trainPass
        simp only [h1, bind, Except.bind]
        rfl
      · exact h2

theorem TNode.assign_good {t : TNode} (h : t.Good) (v : Vars) : (t.assign v).Good := by
  cases t with
  | plain nd =>
    cases nd with
    | linear L =>
      refine ⟨⟨fun q hq => ?_, fun q hq => ?_, fun M hM => ?_, fun _ _ _ hn => by cases hn⟩, ⟨fun q hq => ?_, fun M hM => ?_⟩,
        fun F hF => by cases hF⟩
      · cases hq; exact h.conf.shape _ rfl
      · cases hq; exact h.conf.range _ rfl
      · cases hM
        refine (h.conf.loc L rfl).imp id (Or.imp id fun hb => ?_)
        simp [hb]
      · cases hq; exact h.known.out _ rfl
      · cases hM; exact h.known.weight L rfl
    | quantize | activation | add | passive => exact h
  | dropout rate => exact h
  | fused F => exact FusedLayer.good_congr h rfl rfl rfl rfl rfl rfl rfl ((h.built F rfl).vars _)

/-! ### whole models -/

theorem TrainNet.forward_good (training record : Bool) : ∀ {net : TrainNet} {ss : List QState} (nz : ℕ → Noise) (envs : List (List (List ℚ))),
    (∀ ti ∈ net, ti.1.Good) → ss.length = net.length →
    ∃ net' ss' outs, net.forward training record ss nz envs = .ok (net', ss', outs) ∧ (∀ ti ∈ net', ti.1.Good) ∧
      ss'.length = net'.length ∧ net'.infer.All Node.WF ss'
  | [], [], _, envs, _, _ => ⟨[], [], envs, rfl, by simp, rfl, trivial⟩
  | (t, ins) :: rest, s :: ss, nz, envs, h, hl => by
    obtain ⟨t', s', outs, h1, h2, -, h3⟩ := TNode.forward_good (h (t, ins) (by simp)) s training (training || record) (nz 0) (envs.map (gather · ins))
    obtain ⟨net', ss', outs', g1, g2, g3, g4⟩ := TrainNet.forward_good training record (net := rest) (ss := ss) (fun i => nz (i + 1))
      (List.zipWith (fun env o => env ++ [o]) envs outs) (fun x hx => h x (by simp [hx])) (by simpa using hl)
    refine ⟨(t', ins) :: net', s' :: ss', outs', ?_, ?_, by simp [g3], ⟨h3, g4⟩⟩
    · unfold TrainNet.forward
      simp only [h1, g1, bind, Except.bind]
      rfl
    · intro ti hti
      rcases List.mem_cons.mp hti with e | e
      · rw [e]; exact h2
      · exact g2 ti e
  | _ :: _, [], _, _, _, hl => by simp at hl
  | [], _ :: _, _, _, _, hl => by simp at hl

/-- a model as it can be built: sound layers, one state per layer -/
structure TrainModel.Good (m : TrainModel) : Prop where
  layers : ∀ ti ∈ m.net, ti.1.Good
  states : m.states.length = m.net.length

theorem TrainModel.step_good {m : TrainModel} (h : m.Good) (o : TrainOp) : ∃ m', m.step o = .ok m' ∧ m'.Good ∧
    ((∃ p, o = .forward p) → m'.net.infer.All Node.WF m'.states) := by
  cases o with
  | update vars =>
    refine ⟨_, rfl, ⟨?_, by simp [h.states]⟩, fun ⟨p, hp⟩ => by cases hp⟩
    intro ti hti
    obtain ⟨⟨tj, i⟩, hm, rfl⟩ := List.mem_map.mp hti
    have : tj ∈ m.net := by
      have := List.mem_map_of_mem (f := Prod.fst) hm
      rwa [List.zipIdx_map_fst] at this
    exact TNode.assign_good (h.layers tj this) _
  | forward p =>
    obtain ⟨net', ss', outs, h1, h2, h3, h4⟩ := TrainNet.forward_good p.training p.record p.noise p.batch h.layers h.states
    refine ⟨⟨net', ss'⟩, ?_, ⟨h2, h3⟩, fun _ => h4⟩
    unfold TrainModel.step
    simp only [h1, bind, Except.bind]
    rfl

theorem TrainModel.run_good : ∀ {m : TrainModel}, m.Good → ∀ os, ∃ m', m.run os = .ok m' ∧ m'.Good ∧
    ((∃ os' p, os = os' ++ [.forward p]) → m'.net.infer.All Node.WF m'.states)
  | m, h, [] => ⟨m, rfl, h, fun ⟨os', p, e⟩ => by simp at e⟩
  | m, h, o :: os => by
    obtain ⟨m1, h1, h2, h3⟩ := TrainModel.step_good h o
    obtain ⟨m2, g1, g2, g3⟩ := TrainModel.run_good h2 os
    refine ⟨m2, by unfold TrainModel.run; simp only [h1, bind, Except.bind, g1], g2, ?_⟩
    rintro ⟨os', p, e⟩
    cases os' with
    | nil =>
      simp only [List.nil_append, List.cons.injEq] at e
      rw [e.2] at g1
      cases g1
      exact h3 ⟨p, e.1⟩
    | cons o' os' =>
      simp only [List.cons_append, List.cons.injEq] at e
      exact g3 ⟨os', p, e.2⟩

end HGQ
