import Verif.Lemmas.Shared
import Verif.Props.Loss

/-!
C99, C100: models that call a layer at several places.
-/

namespace HGQ
open Spec

/-- C99, kernels: a model that calls a layer with a kernel at two or more places cannot be run: every call of it raises, training or
not, recording or not, on every batch. -/
theorem C99_reused_kernel_refused (net : SNet) (l : ℕ) (L : LinLayer) (hl : net.layers[l]? = some (.linear L)) (hu : 2 ≤ net.uses l)
    (record : Bool) (st : ℕ → QState) (batch : List (List (List ℚ))) : ∃ e, net.call record st batch = .error e := by
  have hmem : ∃ ins, (l, ins) ∈ net.calls := by
    unfold SNet.uses at hu
    obtain ⟨c, hc⟩ := List.exists_mem_of_length_pos (show 0 < (net.calls.filter fun c => c.1 == l).length by omega)
    rw [List.mem_filter] at hc
    have : c.1 = l := by simpa using hc.2
    exact ⟨c.2, by rw [← this]; exact hc.1⟩
  obtain ⟨ins, hmem⟩ := hmem
  have key : ∀ (cs : List (ℕ × List ℕ)) (st : ℕ → QState) (envs : List (List (List ℚ))), (l, ins) ∈ cs →
      ∃ e, net.callFrom record cs st envs = .error e := by
    intro cs
    induction cs with
    | nil => intro _ _ h; cases h
    | cons c cs ih =>
      obtain ⟨l', ins'⟩ := c
      intro st envs h
      unfold SNet.callFrom
      cases hl' : net.layers[l']? with
      | none => exact ⟨_, rfl⟩
      | some nd =>
        cases hc : nd.call (st l') record (envs.map (gather · ins')) with
        | error e => exact ⟨e, by simp only [hc]; rfl⟩
        | ok r =>
          obtain ⟨s', outs⟩ := r
          simp only [hc, bind, Except.bind]
          split_ifs with hk
          · exact ⟨_, rfl⟩
          · rcases List.mem_cons.mp h with h | h
            · exfalso
              apply hk
              cases h
              rw [hl] at hl'
              cases hl'
              simp [Node.hasKernel]; omega
            · exact ih _ _ h
  exact key net.calls st batch hmem

/-- C99, any input: for a model whose layers may be called any number of times (those with a kernel once), if every quantizer has
recorded a range, `to_proxy_model` succeeds, and on every input on which the quantized values of all calls stay in the ranges recorded by
the layers called, the proxy computes exactly the tensors of the model. -/
theorem C99_in_range (net : SNet) (hv : net.Valid) (st : ℕ → QState) (aggressive : Bool)
    (hw : ∀ (l : ℕ) (nd : Node), net.layers[l]? = some nd → nd.WF (st l))
    (ht : ∀ (l : ℕ) (nd : Node), net.layers[l]? = some nd → nd.AllTraced (st l)) :
    ∃ pm, net.toProxy (proxySat aggressive) st = .ok pm ∧
      ∀ x : List (List ℚ),
        (∀ l e v, net.Seen (fun l => (st l).fbw) net.calls x l e v →
          (st l).mn e ≤ ((v : ℚ) : WithTop ℚ) ∧ ((v : ℚ) : WithBot ℚ) ≤ (st l).mx e) →
        net.predict st x = .ok (pm.eval x) := by
  have hw' := SNet.wf_node hw
  have ht' : ∀ l, (net.node l).AllTraced (st l) := by
    intro l q hq
    cases hl : net.layers[l]? with
    | some nd =>
      have : net.node l = nd := by unfold SNet.node; rw [hl]; rfl
      rw [this] at hq
      exact ht l nd hl q hq
    | none =>
      have : net.node l = .passive fun _ => [] := by unfold SNet.node; rw [hl]; rfl
      rw [this] at hq; cases hq
  obtain ⟨pm, h1, h2⟩ := C26_in_range (net.flat net.calls) (net.calls.map fun c => st c.1) aggressive
    (SNet.all_of hw' _) (SNet.all_of ht' _)
  refine ⟨pm, ?_, fun x hx => ?_⟩
  · unfold SNet.toProxy
    rw [SNet.toProxyFrom_eq _ _ _ hv.layer, h1]
  · have hin : ∀ (cs : List (ℕ × List ℕ)) (env : List (List ℚ)),
        (∀ l e v, net.Seen (fun l => (st l).fbw) cs env l e v →
          (st l).mn e ≤ ((v : ℚ) : WithTop ℚ) ∧ ((v : ℚ) : WithBot ℚ) ≤ (st l).mx e) →
        (net.flat cs).InRange (cs.map fun c => st c.1) env := by
      intro cs
      induction cs with
      | nil => intro _ _; trivial
      | cons c cs ih =>
        intro env h
        exact ⟨fun q hq p hp => h _ _ _ (.inl ⟨rfl, q, hq, p, hp, rfl, rfl⟩), ih _ fun l e v hs => h l e v (.inr hs)⟩
    have := h2 x (hin _ _ hx)
    rw [← this, SNet.predict_eq hv fun l => (hw' l).clip, predict_eq _ _ (all_imp (fun _ _ h => h.clip) (SNet.all_of hw' _))]
    rw [List.map_map]; rfl

/-- C99 on the calibration data: `trace_minmax` over any non-empty dataset with any batch size succeeds and returns the predictions in
order; if the recorded ranges are below `2^32`, `to_proxy_model` succeeds and for every sample of the dataset the proxy computes exactly
the tensors of the model, at every call of every layer. -/
theorem C99_bit_accurate (net : SNet) (hv : net.Valid) (st : ℕ → QState) (bsz : ℕ) (data : List (List (List ℚ))) (aggressive : Bool)
    (hw : ∀ (l : ℕ) (nd : Node), net.layers[l]? = some nd → nd.WF (st l))
    (hbsz : 0 < bsz) (hne : data ≠ []) :
    ∃ st' preds, net.trace st bsz data = .ok (st', preds) ∧ (∀ l, (st' l).fbw = (st l).fbw) ∧
      ((∀ (l : ℕ) (nd : Node), net.layers[l]? = some nd → Bounded nd (st' l)) →
        ∃ pm, net.toProxy (proxySat aggressive) st' = .ok pm ∧ preds = data.map pm.eval ∧
          ∀ x ∈ data, net.predict st' x = .ok (pm.eval x)) := by
  have hw' := SNet.wf_node hw
  obtain ⟨s1, h1, h2, h3, h4, h5, -⟩ := SNet.trace_spec hv st bsz data hw' hbsz
  have hfb : ∀ l, (net.adjust s1 l).fbw = (st l).fbw := fun l => by rw [SNet.adjust_eq, adjust_fbw, h2]
  refine ⟨net.adjust s1, _, h1, hfb, fun hbd => ?_⟩
  have hw1 : ∀ l, (net.node l).WF (net.adjust s1 l) := fun l => (hw' l).congr (hfb l)
  have hg1 : ∀ l, GridState (net.adjust s1 l) := fun l => by rw [SNet.adjust_eq]; exact adjust_grid (h3 l) (h4 l)
  have hin : ∀ x ∈ data, (net.flat net.calls).InRange (net.calls.map fun c => net.adjust s1 c.1) x := by
    intro x hx
    rw [← SNet.adjustAll_eq]
    exact (adjustAll_spec (SNet.all_of h3 _)).2.2.1 x (h5 x hx)
  have hbd' : (net.flat net.calls).All Bounded (net.calls.map fun c => net.adjust s1 c.1) := by
    exact SNet.all_mem _ fun c hc => hbd c.1 _ (SNet.layers_eq (hv.layer c hc))
  obtain ⟨x0, hx0⟩ := List.exists_mem_of_ne_nil data hne
  have ht : (net.flat net.calls).All Node.AllTraced (net.calls.map fun c => net.adjust s1 c.1) :=
    traced_all (SNet.all_of hw1 _) (SNet.all_of hg1 _) hbd' (hin x0 hx0)
  obtain ⟨pm, hpm, hev⟩ := C26_in_range (net.flat net.calls) (net.calls.map fun c => net.adjust s1 c.1) aggressive
    (SNet.all_of hw1 _) ht
  refine ⟨pm, ?_, ?_, fun x hx => ?_⟩
  · unfold SNet.toProxy
    rw [SNet.toProxyFrom_eq _ _ _ hv.layer, hpm]
  · apply List.map_congr_left
    intro x hx
    rw [eval_eq aggressive (SNet.all_of hw1 _) ht hpm (hin x hx), List.map_map]
    congr 1
    apply List.map_congr_left
    intro c _
    exact (hfb c.1).symm
  · rw [← hev x (hin x hx), SNet.predict_eq hv fun l => (hw1 l).clip,
      predict_eq _ _ (all_imp (fun _ _ h => h.clip) (SNet.all_of hw1 _)), List.map_map]
    rfl

/-- C99: `to_proxy_model` refuses a model with a call of a layer that has not recorded a range. -/
theorem C99_untraced_refused (net : SNet) (S : Sat) (st : ℕ → QState) (l : ℕ) (nd : Node) (q : QSite) (hl : net.layers[l]? = some nd)
    (hq : nd.site = some q) (hu : 1 ≤ net.uses l) (e : ℕ) (he : e < prodL q.qShape) (hun : (st l).mn e = ⊤ ∨ (st l).mx e = ⊥) :
    ∃ err, net.toProxy S st = .error err := by
  obtain ⟨c, hc⟩ := List.exists_mem_of_length_pos (show 0 < (net.calls.filter fun c => c.1 == l).length from hu)
  rw [List.mem_filter] at hc
  have hcl : c.1 = l := by simpa using hc.2
  have hall : ¬ (List.range (prodL q.qShape)).all (fun e => rangeOk ((st l).mn e) ((st l).mx e)) = true := by
    rw [List.all_eq_true]
    intro h
    have := h e (List.mem_range.mpr he)
    rcases hun with hun | hun <;> rw [hun] at this
    · cases this
    · cases hm : (st l).mn e <;> rw [hm] at this <;> cases this
  have hnd : ∃ err, nd.toProxy (st l) S = .error err := by
    unfold Node.toProxy
    rw [hq]
    simp only [QState.getBitsExact, if_neg hall]
    exact ⟨_, rfl⟩
  have key : ∀ cs : List (ℕ × List ℕ), c ∈ cs → ∃ err, net.toProxyFrom S st cs = .error err := by
    intro cs
    induction cs with
    | nil => intro h; cases h
    | cons a cs ih =>
      obtain ⟨l', ins'⟩ := a
      intro h
      unfold SNet.toProxyFrom
      cases hl' : net.layers[l']? with
      | none => exact ⟨_, rfl⟩
      | some nd' =>
        simp only
        cases hp : nd'.toProxy (st l') S with
        | error err => exact ⟨err, rfl⟩
        | ok f =>
          rcases List.mem_cons.mp h with h | h
          · exfalso
            rw [h] at hcl
            change l' = l at hcl
            subst hcl
            rw [hl] at hl'
            cases hl'
            obtain ⟨err, he⟩ := hnd
            rw [he] at hp; cases hp
          · obtain ⟨err, he⟩ := ih h
            simp only [he, bind, Except.bind]
            exact ⟨err, rfl⟩
  exact key _ hc.1

/-- C99, ranges: after `trace_minmax`, the range of every quantizer element of a layer without a kernel (softmax, sigmoid and tanh layers
aside, whose ranges are adjusted) is exactly the smallest and the largest value that the layer output at the positions of the element, over
all its calls and all samples. `n` is the number of model inputs; the output of call `k` is tensor `n + k`. -/
theorem C99_range_exact (net : SNet) (hv : net.Valid) (st : ℕ → QState) (bsz n : ℕ) (data : List (List (List ℚ)))
    (hw : ∀ (l : ℕ) (nd : Node), net.layers[l]? = some nd → nd.WF (st l))
    (hbsz : 0 < bsz) (hne : data ≠ []) (hn : ∀ x ∈ data, x.length = n) (l : ℕ) (nd : Node) (q : QSite) (hl : net.layers[l]? = some nd)
    (hq : nd.site = some q) (hker : nd.hasKernel = false) (hadj : ∀ s, nd.adjust s = s) (hused : 1 ≤ net.uses l)
    (e : ℕ) (he : e < prodL q.qShape) :
    ∃ st' preds lo hi, net.trace st bsz data = .ok (st', preds) ∧ (st' l).mn e = ((lo : ℚ) : WithTop ℚ) ∧
      (st' l).mx e = ((hi : ℚ) : WithBot ℚ) ∧
      IsLeast {v : ℚ | ∃ env ∈ preds, ∃ k ins, net.calls[k]? = some (l, ins) ∧ ∃ p < prodL q.outShape, q.elem p = e ∧
        v = (env.getD (n + k) []).getD p 0} lo ∧
      IsGreatest {v : ℚ | ∃ env ∈ preds, ∃ k ins, net.calls[k]? = some (l, ins) ∧ ∃ p < prodL q.outShape, q.elem p = e ∧
        v = (env.getD (n + k) []).getD p 0} hi := by
  have hw' := SNet.wf_node hw
  have hnode : net.node l = nd := by unfold SNet.node; rw [hl]; rfl
  obtain ⟨s1, h1, h2, -, -, h5, h6⟩ := SNet.trace_spec hv st bsz data hw' hbsz
  have hs1 : net.adjust s1 l = s1 l := by rw [SNet.adjust_eq, hnode, hadj]
  set ev := (net.flat net.calls).evalEnv (net.calls.map fun c => (st c.1).fbw) with hev
  set V : Set ℚ := {v : ℚ | ∃ env ∈ data.map ev, ∃ k ins, net.calls[k]? = some (l, ins) ∧ ∃ p < prodL q.outShape, q.elem p = e ∧
        v = (env.getD (n + k) []).getD p 0} with hV
  have hb : ∀ v ∈ V, (s1 l).mn e ≤ ((v : ℚ) : WithTop ℚ) ∧ ((v : ℚ) : WithBot ℚ) ≤ (s1 l).mx e := by
    rintro v ⟨env, henv, k, ins, hk, p, hp, rfl, rfl⟩
    obtain ⟨x, hx, rfl⟩ := List.mem_map.mp henv
    have := SNet.seen_of (net := net) (fun l => (st l).fbw)
      (P := fun l e v => (s1 l).mn e ≤ ((v : ℚ) : WithTop ℚ) ∧ ((v : ℚ) : WithBot ℚ) ≤ (s1 l).mx e) net.calls x
      (fun l e v hs => SNet.seen_inRange net.calls x (h5 x hx) l e v (by simp only [h2]; exact hs))
      k l ins hk q (by rw [hnode]; exact hq) (by rw [hnode]; exact hker) p hp
    rw [hn x hx] at this
    exact this
  obtain ⟨hmn, hmx⟩ : Attained (fun e' v => e' = e → v ∈ V) (s1 l) := by
    refine h6 (fun l' e' v => l' = l → e' = e → v ∈ V) ?_ l |>.imp (fun h e v hh => h e v hh rfl) (fun h e v hh => h e v hh rfl)
    rintro x hx l' e' v hs rfl rfl
    obtain ⟨outs, g1, g2, g3⟩ := SNet.evalEnv_get (net := net) (fun l => (st l).fbw) net.calls x
    obtain ⟨k, ins, hk, q', hq', p, hp, hpe, hval⟩ := g3 l' e' v hs
    rw [hnode, hq] at hq'
    cases hq'
    refine ⟨ev x, List.mem_map.mpr ⟨x, hx, rfl⟩, k, ins, hk, p, hp, hpe, ?_⟩
    rw [← hval (by rw [hnode]; exact hker)]
    have : ev x = x ++ outs := g1
    rw [this, ← hn x hx]
    congr 1
    rw [List.getD_eq_getElem?_getD, List.getD_eq_getElem?_getD, List.getElem?_append_right (Nat.le_add_right _ _), Nat.add_sub_cancel_left]
  have hVne : V.Nonempty := by
    obtain ⟨x0, hx0⟩ := List.exists_mem_of_ne_nil data hne
    obtain ⟨c, hc⟩ := List.exists_mem_of_length_pos (show 0 < (net.calls.filter fun c => c.1 == l).length from hused)
    rw [List.mem_filter] at hc
    obtain ⟨k, hk⟩ := List.mem_iff_getElem?.mp hc.1
    have hcl : c.1 = l := by simpa using hc.2
    obtain ⟨p, hp, hpe⟩ := elemOf_surj ((hw l nd hl).shape q hq) he
    exact ⟨_, ev x0, List.mem_map.mpr ⟨x0, hx0, rfl⟩, k, c.2, by rw [hk, ← hcl], p, hp, hpe, rfl⟩
  obtain ⟨v0, hv0⟩ := hVne
  have hb0 := hb v0 hv0
  obtain ⟨lo, hlo⟩ : ∃ lo : ℚ, (s1 l).mn e = (lo : WithTop ℚ) := by
    cases hm : (s1 l).mn e with
    | top => rw [hm] at hb0; exact absurd hb0.1 (by simp)
    | coe v => exact ⟨v, rfl⟩
  obtain ⟨hi, hhi⟩ : ∃ hi : ℚ, (s1 l).mx e = (hi : WithBot ℚ) := by
    cases hm : (s1 l).mx e with
    | bot => rw [hm] at hb0; exact absurd hb0.2 (by simp)
    | coe v => exact ⟨v, rfl⟩
  refine ⟨_, _, lo, hi, h1, by rw [hs1, hlo], by rw [hs1, hhi], ⟨hmn e lo hlo rfl, ?_⟩, ⟨hmx e hi hhi rfl, ?_⟩⟩
  · intro v hvv
    have := (hb v hvv).1
    rw [hlo] at this
    exact WithTop.coe_le_coe.mp this
  · intro v hvv
    have := (hb v hvv).2
    rw [hhi] at this
    exact WithBot.coe_le_coe.mp this

/-! ### passive layers called several times -/

theorem actBwEnvE_keep : ∀ (net : Net) (rs : List BwRule) (cs : List ℕ) (ss : List LState) (env : List (Except String (List EF)))
    {i : ℕ}, i < env.length → (actBwEnvE net rs cs ss env)[i]? = env[i]?
  | (nd, ins) :: net, r :: rs, c :: cs, s :: ss, env, i, h => by
    unfold actBwEnvE
    rw [actBwEnvE_keep net rs cs ss _ (by simp; omega), List.getElem?_append_left h]
  | [], _, _, _, _, _, _ => by simp [actBwEnvE]
  | _ :: _, [], _, _, _, _, _ => by simp [actBwEnvE]
  | _ :: _, _ :: _, [], _, _, _, _ => by simp [actBwEnvE]
  | _ :: _, _ :: _, _ :: _, [], _, _, _ => by simp [actBwEnvE]

theorem actBwEnvE_get : ∀ {net : Net} {rs : List BwRule} {cs : List ℕ} {ss : List LState} (env : List (Except String (List EF)))
    {j : ℕ} {nd : Node} {ins : List ℕ} {r : BwRule} {c : ℕ} {s : LState}, net[j]? = some (nd, ins) → rs[j]? = some r →
    cs[j]? = some c → ss[j]? = some s →
    ∃ env', (actBwEnvE net rs cs ss env)[env.length + j]? = some (actBwOf nd r c s.q env' ins)
  | (nd0, ins0) :: net, r0 :: rs, c0 :: cs, s0 :: ss, env, 0, nd, ins, r, c, s, h1, h2, h3, h4 => by
    cases h1; cases h2; cases h3; cases h4
    refine ⟨env, ?_⟩
    unfold actBwEnvE
    rw [actBwEnvE_keep net rs cs ss _ (by simp)]
    simp
  | (nd0, ins0) :: net, r0 :: rs, c0 :: cs, s0 :: ss, env, j + 1, nd, ins, r, c, s, h1, h2, h3, h4 => by
    obtain ⟨env', h⟩ := actBwEnvE_get (env ++ [actBwOf nd0 r0 c0 s0.q env ins0]) (net := net) (rs := rs) (cs := cs) (ss := ss) (j := j)
      (by simpa using h1) (by simpa using h2) (by simpa using h3) (by simpa using h4)
    refine ⟨env', ?_⟩
    unfold actBwEnvE
    rw [← h]
    congr 1
    simp; omega
  | [], _, _, _, _, j, _, _, _, _, _, h, _, _, _ => by simp at h
  | _ :: _, [], _, _, _, j, _, _, _, _, _, _, h, _, _ => by simp at h
  | _ :: _, _ :: _, [], _, _, j, _, _, _, _, _, _, _, h, _ => by simp at h
  | _ :: _, _ :: _, _ :: _, [], _, j, _, _, _, _, _, _, _, _, h => by simp at h

theorem actBitsEnv_keep : ∀ (net : Net) (rs : List BwRule) (cs : List ℕ) (ss : List LState) (env : List (Except String (List ℤ)))
    {i : ℕ}, i < env.length → (actBitsEnv net rs cs ss env)[i]? = env[i]?
  | (nd, ins) :: net, r :: rs, c :: cs, s :: ss, env, i, h => by
    unfold actBitsEnv
    rw [actBitsEnv_keep net rs cs ss _ (by simp; omega), List.getElem?_append_left h]
  | [], _, _, _, _, _, _ => by simp [actBitsEnv]
  | _ :: _, [], _, _, _, _, _ => by simp [actBitsEnv]
  | _ :: _, _ :: _, [], _, _, _, _ => by simp [actBitsEnv]
  | _ :: _, _ :: _, _ :: _, [], _, _, _ => by simp [actBitsEnv]

theorem actBitsEnv_get : ∀ {net : Net} {rs : List BwRule} {cs : List ℕ} {ss : List LState} (env : List (Except String (List ℤ)))
    {j : ℕ} {nd : Node} {ins : List ℕ} {r : BwRule} {c : ℕ} {s : LState}, net[j]? = some (nd, ins) → rs[j]? = some r →
    cs[j]? = some c → ss[j]? = some s →
    ∃ env', (actBitsEnv net rs cs ss env)[env.length + j]? = some (actBitsOf nd r c s.q env' ins)
  | (nd0, ins0) :: net, r0 :: rs, c0 :: cs, s0 :: ss, env, 0, nd, ins, r, c, s, h1, h2, h3, h4 => by
    cases h1; cases h2; cases h3; cases h4
    refine ⟨env, ?_⟩
    unfold actBitsEnv
    rw [actBitsEnv_keep net rs cs ss _ (by simp)]
    simp
  | (nd0, ins0) :: net, r0 :: rs, c0 :: cs, s0 :: ss, env, j + 1, nd, ins, r, c, s, h1, h2, h3, h4 => by
    obtain ⟨env', h⟩ := actBitsEnv_get (env ++ [actBitsOf nd0 r0 c0 s0.q env ins0]) (net := net) (rs := rs) (cs := cs) (ss := ss) (j := j)
      (by simpa using h1) (by simpa using h2) (by simpa using h3) (by simpa using h4)
    refine ⟨env', ?_⟩
    unfold actBitsEnv
    rw [← h]
    congr 1
    simp; omega
  | [], _, _, _, _, j, _, _, _, _, _, h, _, _, _ => by simp at h
  | _ :: _, [], _, _, _, j, _, _, _, _, _, _, h, _, _ => by simp at h
  | _ :: _, _ :: _, [], _, _, j, _, _, _, _, _, _, _, h, _ => by simp at h
  | _ :: _, _ :: _, _ :: _, [], _, j, _, _, _, _, _, _, _, _, h => by simp at h

/-- C100 fails: a dense or convolution layer (called once) behind a reshape or pooling layer that is called several times adds
nothing to the loss, whatever `beta`, its kernel and the recorded ranges are: the refusal of the passive layer is taken for "no input
layer". `trace_minmax`, when it comes to count the same layer, raises. -/
theorem C100_behind_reused_passive (net : Net) (m : BopsModel) (fl : ℚ → ℚ) (beta : ℚ) (ss : List LState) (i j : ℕ) (L : LinLayer)
    (rule : BopsRule) (n pf : ℕ) (nd : Node) (ins : List ℕ) (r : BwRule) (c : ℕ) (s : LState)
    (hi : net[i]? = some (.linear L, [m.nInputs + j])) (hrule : m.bops[i]? = some rule) (hr' : rule = .dense n ∨ rule = .conv n pf)
    (hci : m.calls[i]? = some 1)
    (hj : net[j]? = some (nd, ins)) (hr : m.bw[j]? = some r) (hrr : r = .reshape ∨ ∃ k wins, r = .pool k wins)
    (hc : m.calls[j]? = some c) (hc2 : 2 ≤ c) (hs : ss[j]? = some s) :
    net.layerLoss m beta ss i = .ok (.fin 0) ∧ ∃ e, net.exactBops m fl i ss = .error e := by
  constructor
  · obtain ⟨env', h⟩ := actBwEnvE_get (List.replicate m.nInputs (.error "'InputLayer' object has no attribute 'act_bw'")) hj hr hc hs
    rw [List.length_replicate] at h
    have hact : actBwOf nd r c s.q env' ins = .error reusedMsg := by
      have hl : lastBw c env' ins = .error reusedMsg := by
        unfold lastBw inputBw
        rw [if_pos (by omega)]; rfl
      rcases hrr with rfl | ⟨k, wins, rfl⟩
      · exact hl
      · change (lastBw c env' ins >>= _) = _
        rw [hl]; rfl
    rw [hact] at h
    unfold Net.layerLoss
    rw [hi, hrule, hci]
    dsimp only
    have hin : inputBw 1 (actBwEnvE net m.bw m.calls ss
        (List.replicate m.nInputs (.error "'InputLayer' object has no attribute 'act_bw'"))) [m.nInputs + j] = .ok none := by
      unfold inputBw
      rw [if_neg (by omega)]
      dsimp only
      rw [List.getD_eq_getElem?_getD, h]
      simp
    rcases hr' with rfl | rfl <;> (dsimp only; rw [hin]; rfl)
  · obtain ⟨env', h⟩ := actBitsEnv_get (List.replicate m.nInputs (.error "'InputLayer' object has no attribute 'act_bw_exact'")) hj hr hc hs
    rw [List.length_replicate] at h
    have hact : ∃ e, actBitsOf nd r c s.q env' ins = .error e := by
      have hl : lastBits c env' ins = .error "Layer is reused. This is not allowed." := by
        unfold lastBits
        rw [if_pos (by omega)]
      rcases hrr with rfl | ⟨k, wins, rfl⟩
      · exact ⟨_, hl⟩
      · refine ⟨"Layer is reused. This is not allowed.", ?_⟩
        change (lastBits c env' ins >>= _) = _
        rw [hl]; rfl
    obtain ⟨e, hact⟩ := hact
    rw [hact] at h
    refine ⟨e, ?_⟩
    unfold Net.exactBops
    rw [hi, hrule, hci]
    dsimp only
    have hin : lastBits 1 (actBitsEnv net m.bw m.calls ss
        (List.replicate m.nInputs (.error "'InputLayer' object has no attribute 'act_bw_exact'"))) [m.nInputs + j] = .error e := by
      unfold lastBits
      rw [if_neg (by omega)]
      dsimp only
      rw [List.getD_eq_getElem?_getD, h]
      rfl
    rw [hin]
    rcases hr' with rfl | rfl <;> rfl

theorem actBwEnvE_calls : ∀ (net : Net) (rs : List BwRule) (cs cs' : List ℕ) (ss : List LState) (env : List (Except String (List EF))),
    cs.length = cs'.length →
    (∀ (j : ℕ) (r : BwRule), rs[j]? = some r → cs[j]? = cs'[j]? ∨ (∃ b, r = .layer b) ∨ ∃ bits, r = .signature bits) →
    actBwEnvE net rs cs ss env = actBwEnvE net rs cs' ss env
  | (nd, ins) :: net, r :: rs, c :: cs, c' :: cs', s :: ss, env, hl, h => by
    have hact : actBwOf nd r c s.q env ins = actBwOf nd r c' s.q env ins := by
      rcases h 0 r rfl with h0 | ⟨b, rfl⟩ | ⟨bits, rfl⟩
      · simp at h0; rw [h0]
      · rfl
      · rfl
    unfold actBwEnvE
    rw [hact]
    exact actBwEnvE_calls net rs cs cs' ss _ (by simpa using hl) fun j r hj => by simpa using h (j + 1) r (by simpa using hj)
  | [], _, _, _, _, _, _, _ => by simp [actBwEnvE]
  | _ :: _, [], _, _, _, _, _, _ => by simp [actBwEnvE]
  | _ :: _, _ :: _, [], [], _, _, _, _ => by simp [actBwEnvE]
  | _ :: _, _ :: _, _ :: _, _ :: _, [], _, _, _ => by simp [actBwEnvE]
  | _ :: _, _ :: _, [], _ :: _, _, _, h, _ => by simp at h
  | _ :: _, _ :: _, _ :: _, [], _, _, h, _ => by simp at h

theorem actBitsEnv_calls : ∀ (net : Net) (rs : List BwRule) (cs cs' : List ℕ) (ss : List LState) (env : List (Except String (List ℤ))),
    cs.length = cs'.length →
    (∀ (j : ℕ) (r : BwRule), rs[j]? = some r → cs[j]? = cs'[j]? ∨ (∃ b, r = .layer b) ∨ ∃ bits, r = .signature bits) →
    actBitsEnv net rs cs ss env = actBitsEnv net rs cs' ss env
  | (nd, ins) :: net, r :: rs, c :: cs, c' :: cs', s :: ss, env, hl, h => by
    have hact : actBitsOf nd r c s.q env ins = actBitsOf nd r c' s.q env ins := by
      rcases h 0 r rfl with h0 | ⟨b, rfl⟩ | ⟨bits, rfl⟩
      · simp at h0; rw [h0]
      · rfl
      · rfl
    unfold actBitsEnv
    rw [hact]
    exact actBitsEnv_calls net rs cs cs' ss _ (by simpa using hl) fun j r hj => by simpa using h (j + 1) r (by simpa using hj)
  | [], _, _, _, _, _, _, _ => by simp [actBitsEnv]
  | _ :: _, [], _, _, _, _, _, _ => by simp [actBitsEnv]
  | _ :: _, _ :: _, [], [], _, _, _, _ => by simp [actBitsEnv]
  | _ :: _, _ :: _, _ :: _, _ :: _, [], _, _, _ => by simp [actBitsEnv]
  | _ :: _, _ :: _, [], _ :: _, _, _, h, _ => by simp at h
  | _ :: _, _ :: _, _ :: _, [], _, _, h, _ => by simp at h

/-- C100 for layers with a quantizer and `Signature` layers: calling such layers (without a kernel) at several places changes neither the
loss added by any dense or convolution layer nor its exact BOPs. `calls` and `calls'` may differ only at those layers. Missing: passive
layers called several times, see `C100_behind_reused_passive`. -/
theorem C100_quantizers_partial (net : Net) (nInputs : ℕ) (bw : List BwRule) (bops : List BopsRule) (calls calls' : List ℕ)
    (hlen : calls.length = calls'.length)
    (h : ∀ (j : ℕ) (r : BwRule), bw[j]? = some r → calls[j]? = calls'[j]? ∨ (∃ b, r = .layer b) ∨ ∃ bits, r = .signature bits)
    (fl : ℚ → ℚ) (beta : ℚ) (ss : List LState) (i : ℕ) (hi : calls[i]? = calls'[i]?) :
    net.layerLoss ⟨nInputs, bw, bops, calls⟩ beta ss i = net.layerLoss ⟨nInputs, bw, bops, calls'⟩ beta ss i ∧
    net.exactBops ⟨nInputs, bw, bops, calls⟩ fl i ss = net.exactBops ⟨nInputs, bw, bops, calls'⟩ fl i ss := by
  constructor
  · unfold Net.layerLoss
    simp only [hi, actBwEnvE_calls net bw calls calls' ss _ hlen h]
  · unfold Net.exactBops
    simp only [hi, actBitsEnv_calls net bw calls calls' ss _ hlen h]

/-- quantizer, reshape, dense, and the same reshape layer again -/
def exReused : Net :=
  [(.quantize ⟨⟨0, true, some (-10, 20), fun _ => 1, 7 / 10⟩, [2], [2]⟩, [0]), (.passive fun ins => ins.headD [], [1]),
   (.linear { exDense 0 [2] true with taps := denseTaps 2 2 }, [2]), (.passive fun ins => ins.headD [], [3])]

def exReusedStates : List LState :=
  [⟨⟨fun _ => 1, fun _ => ((-2 : ℚ) : WithTop ℚ), fun _ => ((3 / 2 : ℚ) : WithBot ℚ)⟩, false⟩,
   ⟨⟨fun _ => 0, fun _ => ⊤, fun _ => ⊥⟩, false⟩,
   ⟨⟨fun _ => 2, fun _ => ((-1 : ℚ) : WithTop ℚ), fun _ => ((7 / 4 : ℚ) : WithBot ℚ)⟩, false⟩,
   ⟨⟨fun _ => 0, fun _ => ⊤, fun _ => ⊥⟩, false⟩]

/-- with two reshape layers the dense layer adds 60 BOPs times `beta` to the loss; with one reshape layer called twice, nothing -/
example : exReused.layerLoss ⟨1, [.layer false, .reshape, .layer true, .reshape], [.none, .none, .dense 4, .none], [1, 1, 1, 1]⟩ (1 / 100)
      exReusedStates 2 = .ok (.fin (3 / 5)) ∧
    exReused.layerLoss ⟨1, [.layer false, .reshape, .layer true, .reshape], [.none, .none, .dense 4, .none], [1, 2, 1, 2]⟩ (1 / 100)
      exReusedStates 2 = .ok (.fin 0) :=
  ⟨by decide +kernel, (C100_behind_reused_passive exReused
    ⟨1, [.layer false, .reshape, .layer true, .reshape], [.none, .none, .dense 4, .none], [1, 2, 1, 2]⟩ id (1 / 100) exReusedStates 2 1
    _ (.dense 4) 4 1 _ _ .reshape 2 _ rfl rfl (.inl rfl) rfl rfl rfl (.inl rfl) rfl le_rfl rfl).1⟩

-- calling the quantizer of the example twice changes nothing
example : exReused.layerLoss ⟨1, [.layer false, .reshape, .layer true, .reshape], [.none, .none, .dense 4, .none], [2, 1, 1, 1]⟩ (1 / 100)
      exReusedStates 2 = .ok (.fin (3 / 5)) := by
  rw [(C100_quantizers_partial exReused 1 _ _ [2, 1, 1, 1] [1, 1, 1, 1] rfl (fun j r hj => by
    match j, hj with
    | 0, hj => cases hj; exact .inr (.inl ⟨_, rfl⟩)
    | j + 1, _ => exact .inl rfl) id (1 / 100) exReusedStates 2 rfl).1]
  decide +kernel

/-! ### a concrete model -/

/-- one quantizer for the input and for the sum of the quantized input and the output of a dense layer; the addition is called twice -/
def exShared : SNet :=
  ⟨[.quantize exAct, .linear (exDense 3 [2] true), .add exAct], [(0, [0]), (1, [1]), (2, [1, 2]), (0, [3]), (2, [3, 4])]⟩

theorem exShared_valid : exShared.Valid :=
  ⟨by decide, by
    intro l nd hl hk
    match l, hl with
    | 0, h => cases h; cases hk
    | 1, h => decide
    | 2, h => cases h; cases hk
    | (_ + 3), h => cases h⟩

theorem exShared_wf : ∀ (l : ℕ) (nd : Node), exShared.layers[l]? = some nd → nd.WF exState := by
  intro l nd hl
  have h := exNet_wf
  match l, hl with
  | 0, hl => cases hl; exact h.1
  | 1, hl => cases hl; exact h.2.1
  | 2, hl => cases hl; exact h.2.2.2.1
  | (_ + 3), hl => cases hl

example : exShared.uses 0 = 2 ∧ exShared.uses 2 = 2 := by decide

/-- `C99_bit_accurate` and `C99_range_exact` apply -/
example : (∃ st' preds, exShared.trace (fun _ => exState) 1 exData = .ok (st', preds)) ∧
    ∃ st' preds lo hi, exShared.trace (fun _ => exState) 1 exData = .ok (st', preds) ∧ (st' 0).mn 1 = ((lo : ℚ) : WithTop ℚ) ∧
      (st' 0).mx 1 = ((hi : ℚ) : WithBot ℚ) := by
  obtain ⟨st', preds, h, -⟩ := C99_bit_accurate exShared exShared_valid (fun _ => exState) 1 exData true exShared_wf (by decide) (by decide)
  obtain ⟨st2, preds2, lo, hi, h1, h2, h3, -⟩ := C99_range_exact exShared exShared_valid (fun _ => exState) 1 1 exData exShared_wf
    (by decide) (by decide) (by decide) 0 (.quantize exAct) exAct rfl rfl rfl (fun _ => rfl) (by decide) 1 (by decide)
  exact ⟨⟨st', preds, h⟩, st2, preds2, lo, hi, h1, h2, h3⟩

/-- calling the dense layer a second time makes the model unusable -/
example (record : Bool) (batch : List (List (List ℚ))) :
    ∃ e, SNet.call record ⟨exShared.layers, exShared.calls ++ [(1, [5])]⟩ (fun _ => exState) batch = .error e :=
  C99_reused_kernel_refused ⟨exShared.layers, exShared.calls ++ [(1, [5])]⟩ 1 _ rfl (by decide) record _ batch

/-- the ranges cover both calls: the quantizer outputs -2, 1, 2 at position 0 and 1/4, 5/4, 6 at position 1, 6 at its second call only -/
example : ((exShared.trace (fun _ => exState) 1 exData).toOption.map fun r =>
    (((r.1 0).mn 0).untopD 0, ((r.1 0).mx 0).unbotD 0, ((r.1 0).mn 1).untopD 0, ((r.1 0).mx 1).unbotD 0,
      ((r.1 2).mn 0).untopD 0, ((r.1 2).mx 0).unbotD 0)) = some ((-2 : ℚ), (2 : ℚ), (1 / 4 : ℚ), (6 : ℚ), (-4 : ℚ), (4 : ℚ)) := by
  decide +kernel

/-- the proxy reproduces the model -/
example : ((do
    let (st', preds) ← exShared.trace (fun _ => exState) 1 exData
    let pm ← exShared.toProxy .WRAP st'
    return decide (exData.map pm.eval = preds)) : Except String Bool) = .ok true := by
  decide +kernel

end HGQ
