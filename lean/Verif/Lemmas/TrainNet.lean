import Verif.Lemmas.QuantError

namespace HGQ
open Spec

/-! ### training computes what inference computes, if every quantizer does -/

theorem LinLayer.preT_eq {L : LinLayer} {training : Bool} {fbw : ℕ → ℚ} {nz : Noise}
    (hk : ∀ f x n, L.kq.forward f x n training = .ok (evalQ L.kq.strategy f x))
    (ha : ∀ f x n, L.paq.forward f x n training = .ok (evalQ L.paq.strategy f x)) (x : List ℚ) (p : ℕ) :
    L.preT training fbw nz x p = .ok (L.pre fbw x p) := by
  unfold LinLayer.preT
  rw [mapM_ok (fun ij : ℕ × ℕ => x.getD ij.1 0 * L.qkernel ij.2)]
  · have hb : L.biasT training fbw nz (L.chan p) = .ok (L.jitBias fbw (L.chan p)) := by
      unfold LinLayer.biasT LinLayer.jitBias
      cases L.bias with
      | none => rfl
      | some b => exact ha _ _ _
    rw [hb]
    rfl
  · intro ij _
    rw [hk]
    rfl

/-- every quantizer of the layer computes the inference value, whatever the random numbers -/
structure Node.Same (nd : Node) (training : Bool) : Prop where
  out : ∀ q, nd.site = some q → ∀ f x n, q.conf.forward f x n training = .ok (evalQ q.conf.strategy f x)
  weight : ∀ L, nd = .linear L → ∀ f x n, L.kq.forward f x n training = .ok (evalQ L.kq.strategy f x)

theorem Node.preAtT_eq {nd : Node} {training : Bool} (h : nd.Same training) (fbw : ℕ → ℚ) (nz : Noise) (ins : List (List ℚ)) (p : ℕ) :
    nd.preAtT training fbw nz ins p = .ok (nd.preAt fbw ins p) := by
  cases nd with
  | linear L => exact LinLayer.preT_eq (h.weight L rfl) (h.out _ rfl) _ _
  | quantize | activation | add | passive => rfl

theorem call_same {c : QConf} {training : Bool} (h : ∀ f x n, c.forward f x n training = .ok (evalQ c.strategy f x)) (elem : ℕ → ℕ) (s : QState)
    (noise noise' : ℕ → ℕ → ℚ) (record : Bool) (xs : List (List ℚ)) :
    c.call elem s noise training record xs = c.call elem s noise' false record xs := by
  unfold QConf.call QConf.forwardBatch
  simp only [h, C11_inference_total]

theorem Node.callT_eq {nd : Node} {training : Bool} (h : nd.Same training) (s : QState) (record : Bool) (nz : Noise)
    (insB : List (List (List ℚ))) : nd.callT s training record nz insB = nd.call s record insB := by
  unfold Node.callT Node.call
  cases hs : nd.site with
  | none => rfl
  | some q =>
    simp only
    rw [mapM_ok (nd.pre s.fbw)]
    · simp only [bind, Except.bind]
      rw [call_same (h.out q hs) _ _ _ (fun _ _ => 0)]
    · intro ins _
      rw [mapM_ok (nd.preAt s.fbw ins) _ _ fun p _ => Node.preAtT_eq h _ _ _ _]
      congr 1
      unfold Node.pre
      rw [hs]

theorem Net.callT_eq (training record : Bool) : ∀ (net : Net) (ss : List QState) (nz : ℕ → Noise) (envs : List (List (List ℚ))),
    (∀ ni ∈ net, ni.1.Same training) → net.callT training record ss nz envs = net.call (training || record) ss envs
  | [], _, _, _, _ => rfl
  | (nd, ins) :: rest, s :: ss, nz, envs, h => by
    unfold Net.callT Net.call
    rw [Node.callT_eq (h (nd, ins) (by simp))]
    congr 1
    funext a
    obtain ⟨s', outs⟩ := a
    simp only
    rw [Net.callT_eq training record rest ss _ _ fun x hx => h x (by simp [hx])]
  | _ :: _, [], _, _, _ => rfl

/-! ### with random numbers, training is a perturbation -/

/-- the value of a quantizer call that succeeds -/
def okD (e : Except String ℚ) : ℚ := match e with | .ok y => y | .error _ => 0

theorem okD_spec {e : Except String ℚ} {P : ℚ → Prop} (h : ∃ y, e = .ok y ∧ P y) : e = .ok (okD e) ∧ P (okD e) := by
  obtain ⟨y, rfl, hy⟩ := h
  exact ⟨rfl, hy⟩

theorem forall2_range {R : ℕ → ℚ → Prop} {n : ℕ} {l : List ℚ} (h : List.Forall₂ R (List.range n) l) :
    l.length = n ∧ ∀ p < n, R p (l.getD p 0) := by
  have hl : l.length = n := by rw [← h.length_eq, List.length_range]
  refine ⟨hl, fun p hp => ?_⟩
  have := List.forall₂_iff_get.mp h
  have h2 := this.2 p (by simpa using hp) (by omega)
  simpa [List.getD_eq_getElem?_getD, hl, hp] using h2

theorem forall2_comp {α β γ : Type} {R : α → β → Prop} {S : γ → β → Prop} {T : α → γ → Prop} (hRS : ∀ a b c, R a b → S c b → T a c) :
    ∀ {l : List α} {m : List β} {k : List γ}, List.Forall₂ R l m → List.Forall₂ S k m → List.Forall₂ T l k
  | [], [], [], _, _ => .nil
  | _ :: _, _ :: _, _ :: _, .cons h t, .cons h' t' => .cons (hRS _ _ _ h h') (forall2_comp hRS t t')

theorem forall2_flip {α β : Type} {R : α → β → Prop} {l : List α} {m : List β} (h : List.Forall₂ R l m) :
    List.Forall₂ (fun b a => R a b) m l := by
  induction h with
  | nil => exact .nil
  | cons h _ ih => exact .cons h ih

theorem sample_err {c : QConf} (hv : c.Valid) {F n : ℕ} {elem : ℕ → ℕ} {fbw : ℕ → ℚ} (hf : ∀ p < n, (F : ℚ) ≤ fbw (elem p)) {noise : ℕ → ℚ}
    (hn : ∀ p, |noise p| ≤ 1) (training : Bool) {z : List ℚ} (hz : z.length = n) :
    ∃ o, (z.zipIdx.mapM fun vp => c.forward (fbw (elem vp.2)) vp.1 (noise vp.2) training) = .ok o ∧ Close (p2 (-(F : ℤ))) o z := by
  obtain ⟨o, h1, h2⟩ := mapM_rel (R := fun (vp : ℚ × ℕ) y => |y - vp.1| ≤ p2 (-(F : ℤ)))
    (f := fun vp => c.forward (fbw (elem vp.2)) vp.1 (noise vp.2) training) z.zipIdx (fun vp hvp => by
      refine forward_err hv (hf vp.2 ?_) _ _ (hn _) _
      have := (List.mem_zipIdx hvp).2.1
      omega)
  refine ⟨o, h1, ?_⟩
  have h3 : List.Forall₂ (fun (v : ℚ) y => |y - v| ≤ p2 (-(F : ℤ))) z o := by
    have := List.forall₂_map_left_iff (f := Prod.fst) (R := fun (v : ℚ) y => |y - v| ≤ p2 (-(F : ℤ))) (l := z.zipIdx) (u := o)
    rw [List.zipIdx_map_fst] at this
    exact this.mpr h2
  have hl := h3.length_eq
  refine ⟨hl.symm, fun p => ?_⟩
  by_cases hp : p < z.length
  · have := (List.forall₂_iff_get.mp h3).2 p hp (by omega)
    simpa [List.getD_eq_getElem?_getD, hp, hl ▸ hp] using this
  · rw [List.getD_eq_getElem?_getD, List.getD_eq_getElem?_getD, List.getElem?_eq_none (by omega), List.getElem?_eq_none (by omega)]
    simpa using (p2_pos _).le

theorem batch_err {c : QConf} (hv : c.Valid) {F n : ℕ} {elem : ℕ → ℕ} {fbw : ℕ → ℚ} (hf : ∀ p < n, (F : ℚ) ≤ fbw (elem p)) {noise : ℕ → ℕ → ℚ}
    (hn : ∀ b p, |noise b p| ≤ 1) (training : Bool) {zs : List (List ℚ)} (hz : ∀ z ∈ zs, z.length = n) :
    ∃ os, c.forwardBatch elem fbw noise training zs = .ok os ∧ List.Forall₂ (Close (p2 (-(F : ℤ)))) os zs := by
  unfold QConf.forwardBatch
  have hs : ∀ sb ∈ zs.zipIdx, ∃ o, (sb.1.zipIdx.mapM fun vp => c.forward (fbw (elem vp.2)) vp.1 (noise sb.2 vp.2) training) = .ok o ∧
      Close (p2 (-(F : ℤ))) o sb.1 := by
    intro sb hsb
    have hm : sb.1 ∈ zs := by
      have := List.mem_map_of_mem (f := Prod.fst) hsb
      rwa [List.zipIdx_map_fst] at this
    exact sample_err (noise := noise sb.2) hv hf (hn _) training (hz _ hm)
  obtain ⟨os, h1, h2⟩ := mapM_rel (R := fun (sb : List ℚ × ℕ) o => Close (p2 (-(F : ℤ))) o sb.1) zs.zipIdx hs
  refine ⟨os, h1, forall2_flip ?_⟩
  have := List.forall₂_map_left_iff (f := Prod.fst) (R := fun (z : List ℚ) o => Close (p2 (-(F : ℤ))) o z) (l := zs.zipIdx) (u := os)
  rw [List.zipIdx_map_fst] at this
  exact this.mpr h2

/-- the pre-activation of a dense or convolution layer in training -/
theorem preT_err {L : LinLayer} {s : QState} (hw : (Node.linear L).WF s) {F : ℕ} (hf : (Node.linear L).Fine F s) (hv : (Node.linear L).Valid)
    {nz : Noise} (hn : nz.Unit) (training : Bool) (x : List ℚ) {p : ℕ} (hp : p < prodL L.outShape) :
    ∃ z, L.preT training s.fbw nz x p = .ok z ∧ ∃ (w : ℕ → ℚ) (b : ℚ), (∀ ij ∈ L.taps p, |w ij.2 - L.kernel ij.2| ≤ p2 (-(F : ℤ))) ∧
      |b - (match L.bias with | none => 0 | some b => b (L.chan p))| ≤ p2 (-(F : ℤ)) ∧
      z = ((L.taps p).map fun ij => x.getD ij.1 0 * w ij.2).sum + b := by
  have hk : ∀ ij ∈ L.taps p, _ := fun ij hij => okD_spec (forward_err (hv.weight L rfl) (hf.weight L rfl p hp ij hij) (L.kernel ij.2) (nz.kernel ij.2)
    (hn.kernel _) training)
  have hm : (L.taps p).mapM (fun ij => do
      let k ← L.kq.forward (L.kq.clip (L.kfbw ij.2)) (L.kernel ij.2) (nz.kernel ij.2) training
      return x.getD ij.1 0 * k) = .ok ((L.taps p).map fun ij : ℕ × ℕ =>
        x.getD ij.1 0 * okD (L.kq.forward (L.kq.clip (L.kfbw ij.2)) (L.kernel ij.2) (nz.kernel ij.2) training)) := by
    refine mapM_ok _ _ _ fun ij hij => ?_
    conv_lhs => rw [(hk ij hij).1]
    rfl
  have hb : ∃ b, L.biasT training s.fbw nz (L.chan p) = .ok b ∧
      |b - (match L.bias with | none => 0 | some b => b (L.chan p))| ≤ p2 (-(F : ℤ)) := by
    unfold LinLayer.biasT
    cases hbb : L.bias with
    | none => exact ⟨0, rfl, by simpa using (p2_pos _).le⟩
    | some b => exact forward_err (hv.out _ rfl) (bias_fine hw hf hp hbb) _ _ (hn.bias _) training
  obtain ⟨b, hb1, hb2⟩ := hb
  refine ⟨_, ?_, fun j => okD (L.kq.forward (L.kq.clip (L.kfbw j)) (L.kernel j) (nz.kernel j) training), b, fun ij hij => (hk ij hij).2, hb2, rfl⟩
  unfold LinLayer.preT
  rw [hm, hb1]
  rfl

theorem close_eq_range {n : ℕ} {o : List ℚ} (h : o.length = n) : o = (List.range n).map fun p => o.getD p 0 := by
  apply List.ext_getElem
  · simp [h]
  · intro i h1 h2
    simp [List.getD_eq_getElem?_getD, h1]

theorem Node.callT_perturbed {nd : Node} {s : QState} (hw : nd.WF s) {F : ℕ} (hf : nd.Fine F s) (hv : nd.Valid) {nz : Noise} (hn : nz.Unit)
    (training record : Bool) (insB : List (List (List ℚ))) :
    ∃ s' outs, nd.callT s training record nz insB = .ok (s', outs) ∧
      List.Forall₂ (fun ins out => nd.float.Perturbed (p2 (-(F : ℤ))) ins out) insB outs := by
  unfold Node.callT
  cases hs : nd.site with
  | none =>
    refine ⟨_, _, rfl, ?_⟩
    rw [List.forall₂_map_right_iff, List.forall₂_same]
    intro ins _
    cases nd <;> simp only [Node.site] at hs <;> try cases hs
    rfl
  | some q =>
    have hfe : ∀ p < prodL q.outShape, (F : ℚ) ≤ s.fbw (q.elem p) := fun p hp => hf.out q hs _ (elemOf_lt (hw.shape q hs) hp)
    have hcl : (fun e => q.conf.clip (s.fbw e)) = s.fbw := funext (hw.clip q hs)
    -- the values handed to the quantizer
    obtain ⟨zs, hz1, hz2⟩ := mapM_rel (R := fun (ins : List (List ℚ)) (z : List ℚ) => z.length = prodL q.outShape ∧ ∀ p < prodL q.outShape,
        nd.preAtT training s.fbw nz ins p = .ok (z.getD p 0))
      (f := fun ins => (List.range (prodL q.outShape)).mapM (nd.preAtT training s.fbw nz ins)) insB (by
        intro ins _
        obtain ⟨z, h1, h2⟩ := mapM_rel (R := fun p y => nd.preAtT training s.fbw nz ins p = .ok y)
          (f := nd.preAtT training s.fbw nz ins) (List.range (prodL q.outShape)) (by
            intro p hp
            have hp := List.mem_range.mp hp
            cases nd with
            | linear L =>
              cases hs
              obtain ⟨z, h, -⟩ := preT_err hw hf hv hn training (ins.headD []) hp
              exact ⟨z, h, h⟩
            | quantize | activation | add | passive => exact ⟨_, rfl, rfl⟩)
        exact ⟨z, h1, forall2_range h2⟩)
    have hlen : ∀ z ∈ zs, z.length = prodL q.outShape := by
      intro z hz
      obtain ⟨ins, -, h⟩ := forall2_mem_left (forall2_flip hz2) hz
      exact h.1
    obtain ⟨os, ho1, ho2⟩ := batch_err (hv.out q hs) hfe hn.out training hlen
    have hcall : ∃ s', q.conf.call q.elem s nz.out training record zs = .ok (s', os) := by
      unfold QConf.call
      rw [hcl]
      simp only [ho1, bind, Except.bind]
      cases record <;> exact ⟨_, rfl⟩
    obtain ⟨s', hcall⟩ := hcall
    refine ⟨s', os.map fun z => z.map nd.post, ?_, ?_⟩
    · simp only [hz1, hcall, bind, Except.bind, pure, Except.pure]
    · rw [List.forall₂_map_right_iff]
      refine forall2_comp (fun ins z o hz ho => ?_) hz2 ho2
      have hol : o.length = prodL q.outShape := ho.1.trans hz.1
      cases nd with
      | quantize | activation | add =>
        cases hs
        refine ⟨fun p => o.getD p 0, by rw [← close_eq_range hol]; simp [Node.post], fun p hp => ?_⟩
        have h1 := hz.2 p hp
        have h2 := ho.2 p
        injection h1 with h1
        rw [← h1] at h2
        exact h2
      | passive g => cases hs
      | linear L =>
        cases hs
        have key : ∀ p, ∃ (w : ℕ → ℚ) (b : ℚ), p < prodL L.outShape → (∀ ij ∈ L.taps p, |w ij.2 - L.kernel ij.2| ≤ p2 (-(F : ℤ))) ∧
            |b - (match L.bias with | none => 0 | some b => b (L.chan p))| ≤ p2 (-(F : ℤ)) ∧
            z.getD p 0 = ((L.taps p).map fun ij => (ins.headD []).getD ij.1 0 * w ij.2).sum + b := by
          intro p
          by_cases hp : p < prodL L.outShape
          · obtain ⟨z', h1, w, b, h2, h3, h4⟩ := preT_err hw hf hv hn training (ins.headD []) hp
            have h5 := hz.2 p hp
            change L.preT training s.fbw nz (ins.headD []) p = _ at h5
            rw [h1] at h5
            injection h5 with h5
            exact ⟨w, b, fun _ => ⟨h2, h3, by rw [← h5]; exact h4⟩⟩
          · exact ⟨fun _ => 0, 0, fun h => absurd h hp⟩
        choose w b hwb using key
        refine ⟨w, b, fun p => o.getD p 0, ?_, fun p hp => ⟨(hwb p hp).1, (hwb p hp).2.1, ?_⟩⟩
        · conv_lhs => rw [close_eq_range hol]
          rw [List.map_map]
          rfl
        · rw [← (hwb p hp).2.2]
          exact ho.2 p

theorem zip_append_rel {R : List (List ℚ) → List ℚ → Prop} : ∀ {envs : List (List (List ℚ))} {outs : List (List ℚ)}, List.Forall₂ R envs outs →
    List.Forall₂ (fun env e => ∃ o, R env o ∧ e = env ++ [o]) envs (List.zipWith (fun env o => env ++ [o]) envs outs)
  | [], [], _ => .nil
  | _ :: _, _ :: _, .cons h t => .cons ⟨_, h, rfl⟩ (zip_append_rel t)

theorem forall2_trans {α β γ : Type} {R : α → β → Prop} {S : β → γ → Prop} {T : α → γ → Prop} (h : ∀ a b c, R a b → S b c → T a c) :
    ∀ {l : List α} {m : List β} {k : List γ}, List.Forall₂ R l m → List.Forall₂ S m k → List.Forall₂ T l k
  | [], [], [], _, _ => .nil
  | _ :: _, _ :: _, _ :: _, .cons a t, .cons b t' => .cons (h _ _ _ a b) (forall2_trans h t t')

/-- a forward pass of the network, in training or not, is a perturbation of the network without quantizers -/
theorem Net.callT_perturbed (training record : Bool) {F : ℕ} : ∀ (net : Net) (ss : List QState) (nz : ℕ → Noise) (envs : List (List (List ℚ))),
    net.All Node.WF ss → net.All (Node.Fine F) ss → (∀ ni ∈ net, ni.1.Valid) → (∀ i, (nz i).Unit) →
    ∃ ss' outs, net.callT training record ss nz envs = .ok (ss', outs) ∧
      List.Forall₂ (fun env out => net.float.Perturbed (p2 (-(F : ℤ))) env out) envs outs
  | [], [], _, envs, _, _, _, _ => ⟨_, envs, rfl, List.forall₂_same.mpr fun _ _ => rfl⟩
  | (nd, ins) :: rest, s :: ss, nz, envs, hw, hf, hv, hn => by
    obtain ⟨s', outs, h1, h2⟩ := Node.callT_perturbed hw.1 hf.1 (hv (nd, ins) (by simp)) (hn 0) training (training || record) (envs.map (gather · ins))
    rw [List.forall₂_map_left_iff] at h2
    obtain ⟨ss', outs', h3, h4⟩ := Net.callT_perturbed training record rest ss (fun i => nz (i + 1)) (List.zipWith (fun env o => env ++ [o]) envs outs)
      hw.2 hf.2 (fun x hx => hv x (by simp [hx])) fun i => hn (i + 1)
    refine ⟨s' :: ss', outs', ?_, ?_⟩
    · unfold Net.callT
      simp only [h1, h3, bind, Except.bind, pure, Except.pure]
    · refine forall2_trans (fun env e out he ho => ?_) (zip_append_rel h2) h4
      obtain ⟨o, ho1, rfl⟩ := he
      exact ⟨o, ho1, ho⟩

end HGQ
