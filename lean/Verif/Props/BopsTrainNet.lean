import Verif.Props.Loss

/-!
C76 for whole models: the BOPs in the loss of every layer against its exact BOPs, with the bits carried through reshapes, concatenations and pooling.
-/

namespace HGQ
open Spec

/-- whenever the exact bits of a tensor are known, so are the bits used in training, and they are at least as many -/
def BitsLe (a : Except String (List ℤ)) (b : Except String (List EF)) : Prop :=
  ∀ bits, a = .ok bits → ∃ t : List ℤ, b = .ok (t.map fun (x : ℤ) => EF.fin x) ∧ List.Forall₂ (· ≤ ·) bits t ∧ ∀ x ∈ bits, 0 ≤ x

theorem BitsLe.error (e : String) (b : Except String (List EF)) : BitsLe (.error e) b := fun _ h => by cases h

theorem bitsLe_getD {env : List (Except String (List ℤ))} {env' : List (Except String (List EF))} (h : List.Forall₂ BitsLe env env')
    (i : ℕ) (e e' : String) : BitsLe (env.getD i (.error e)) (env'.getD i (.error e')) := by
  induction h generalizing i with
  | nil => exact BitsLe.error _ _
  | cons h1 _ ih =>
    cases i with
    | zero => exact h1
    | succ i => exact ih i

theorem bitsLe_last {env : List (Except String (List ℤ))} {env' : List (Except String (List EF))} (h : List.Forall₂ BitsLe env env')
    {c : ℕ} (hc : c ≤ 1) (ins : List ℕ) (bits : List ℤ) (hb : lastBits c env ins = .ok bits) :
    ∃ t : List ℤ, inputBw c env' ins = .ok (some (t.map fun (x : ℤ) => EF.fin x)) ∧ List.Forall₂ (· ≤ ·) bits t ∧ ∀ x ∈ bits, 0 ≤ x := by
  unfold lastBits at hb
  unfold inputBw
  rw [if_neg (by omega)] at hb ⊢
  match ins, hb with
  | [i], hb =>
    obtain ⟨t, h1, h2⟩ := bitsLe_getD h i "no such layer" "no such layer" bits hb
    refine ⟨t, ?_, h2⟩
    dsimp only
    rw [h1]
  | [], hb => cases hb
  | _ :: _ :: _, hb => cases hb

theorem bitsLe_lastBw {env : List (Except String (List ℤ))} {env' : List (Except String (List EF))} (h : List.Forall₂ BitsLe env env')
    {c : ℕ} (hc : c ≤ 1) (ins : List ℕ) : BitsLe (lastBits c env ins) (lastBw c env' ins) := by
  intro bits hb
  obtain ⟨t, h1, h2⟩ := bitsLe_last h hc ins bits hb
  refine ⟨t, ?_, h2⟩
  unfold lastBw
  rw [h1]
  rfl

theorem bitsLe_mapM {env : List (Except String (List ℤ))} {env' : List (Except String (List EF))} (h : List.Forall₂ BitsLe env env') :
    ∀ (ins : List ℕ) (bs : List (List ℤ)), (ins.mapM fun i => env.getD i (.error "no such layer")) = .ok bs →
      ∃ ts : List (List ℤ), (ins.mapM fun i => env'.getD i (.error "no such layer")) = .ok (ts.map fun t => t.map fun (x : ℤ) => EF.fin x) ∧
        List.Forall₂ (List.Forall₂ (· ≤ ·)) bs ts ∧ ∀ l ∈ bs, ∀ x ∈ l, 0 ≤ x
  | [], bs, hb => by
    rw [List.mapM_nil] at hb
    cases hb
    exact ⟨[], by rw [List.mapM_nil]; rfl, .nil, by simp⟩
  | i :: ins, bs, hb => by
    rw [List.mapM_cons] at hb
    cases hf : env.getD i (.error "no such layer") with
    | error e => rw [hf] at hb; cases hb
    | ok v =>
      cases hl : ins.mapM (fun i => env.getD i (.error "no such layer")) with
      | error e => rw [hf] at hb; simp only [bind, Except.bind, hl] at hb; cases hb
      | ok vs =>
        rw [hf] at hb
        simp only [bind, Except.bind, hl, pure, Except.pure] at hb
        cases hb
        obtain ⟨t, h1, h2, h3⟩ := bitsLe_getD h i "no such layer" "no such layer" v hf
        obtain ⟨ts, h4, h5, h6⟩ := bitsLe_mapM h ins vs hl
        refine ⟨t :: ts, ?_, .cons h2 h5, ?_⟩
        · rw [List.mapM_cons, h1]
          simp only [bind, Except.bind, h4, pure, Except.pure, List.map_cons]
        · intro l hl2
          rcases List.mem_cons.mp hl2 with rfl | hl2
          · exact h3
          · exact h6 l hl2

theorem foldr_max2_fin (l : List ℤ) (a : ℤ) :
    (l.map fun (x : ℤ) => EF.fin x).foldr EF.max2 (.fin (a : ℚ)) = .fin ((l.foldr max a : ℤ) : ℚ) := by
  induction l with
  | nil => rfl
  | cons b l ih =>
    rw [List.map_cons, List.foldr_cons, ih, List.foldr_cons, Int.cast_max]
    rfl

theorem foldr_max_mono {α : Type} (l : List α) {f g : α → ℤ} (h : ∀ x, f x ≤ g x) {a b : ℤ} (hab : a ≤ b) :
    (l.map f).foldr max a ≤ (l.map g).foldr max b := by
  induction l with
  | nil => exact hab
  | cons x l ih => exact max_le_max (h x) ih

theorem le_foldr_max (l : List ℤ) (a : ℤ) : a ≤ l.foldr max a := by
  induction l with
  | nil => exact le_refl _
  | cons x l ih => exact le_max_of_le_right ih

theorem siteTraced_recorded {q : QSite} {s : QState} (h : SiteTraced q s) : SiteRecorded q s := by
  intro p hp
  obtain ⟨lo, hi, ht⟩ := h.range _ (elemOf_lt h.shape hp)
  exact ⟨lo, hi, ht.mn, ht.mx⟩

theorem bitsLe_site {q : QSite} {s : QState} (h : SiteTraced q s) (posOnly : Bool) : BitsLe (q.actBits posOnly s) (.ok (q.actBwE posOnly s)) := by
  intro bits hb
  refine ⟨q.actBitsTrain posOnly s, by rw [actBwE_site (siteTraced_recorded h)], ?_, ?_⟩
  · obtain ⟨bits', h1, h2⟩ := C76_input_bits h posOnly
    rw [hb] at h1
    cases h1
    exact h2
  · obtain ⟨bits', h1, h2, h3⟩ := C51_dead_inputs h posOnly
    rw [hb] at h1
    cases h1
    intro x hx
    obtain ⟨p, hp, rfl⟩ := List.mem_iff_getElem.mp hx
    obtain ⟨lo, hi, h4, h5⟩ := siteTraced_recorded h p (by omega)
    have := (h3 p (by omega) lo hi h4 h5).1
    rw [List.getD_eq_getElem?_getD, List.getElem?_eq_getElem hp] at this
    exact this

theorem bitsLe_of {nd : Node} {r : BwRule} {c : ℕ} {s : QState} {env : List (Except String (List ℤ))} {env' : List (Except String (List EF))}
    {ins : List ℕ} (h : List.Forall₂ BitsLe env env') (hc : c ≤ 1) (hs : ∀ q, nd.site = some q → SiteTraced q s)
    (hsig : ∀ bits, r = .signature bits → ∀ b ∈ bits, 0 ≤ b) : BitsLe (actBitsOf nd r c s env ins) (actBwOf nd r c s env' ins) := by
  unfold actBitsOf actBwOf
  cases r with
  | layer posOnly =>
    dsimp only
    cases hq : nd.site with
    | none => exact BitsLe.error _ _
    | some q => exact bitsLe_site (hs q hq) posOnly
  | reshape => exact bitsLe_lastBw h hc ins
  | concat outer rests =>
    dsimp only
    rw [if_neg (by omega)]
    intro bits hb
    cases hm : ins.mapM (fun i => env.getD i (.error "no such layer")) with
    | error e => simp only [bind, Except.bind, hm] at hb; cases hb
    | ok bs =>
      simp only [bind, Except.bind, hm, pure, Except.pure] at hb
      cases hb
      obtain ⟨ts, h1, h2, h3⟩ := bitsLe_mapM h ins bs hm
      refine ⟨concatFlat outer rests ts, ?_, concatFlat_rel outer rests h2, ?_⟩
      · simp only [bind, Except.bind, h1, pure, Except.pure]
        rw [concatFlat_map (fun (x : ℤ) => EF.fin x)]
      · intro x hx
        obtain ⟨l, hl, hx⟩ := mem_concatFlat hx
        exact h3 l hl x hx
  | pool n wins =>
    dsimp only
    intro bits hb
    cases hm : lastBits c env ins with
    | error e => simp only [bind, Except.bind, hm] at hb; cases hb
    | ok bs =>
      simp only [bind, Except.bind, hm, pure, Except.pure] at hb
      cases hb
      obtain ⟨t, h1, h2, h3⟩ := bitsLe_lastBw h hc ins bs hm
      refine ⟨maxPool n wins t, ?_, ?_, ?_⟩
      · simp only [bind, Except.bind, h1, pure, Except.pure]
        unfold maxPool
        rw [List.map_map]
        congr 1
        refine List.map_congr_left fun p _ => ?_
        simp only [Function.comp_apply, getD_fin]
        rw [← foldr_max2_fin, List.map_map]
        rfl
      · unfold maxPool
        simp only [List.forall₂_map_left_iff, List.forall₂_map_right_iff, List.forall₂_same]
        exact fun p _ => foldr_max_mono _ (fun i => getD_le h2 i) (getD_le h2 _)
      · intro x hx
        unfold maxPool at hx
        obtain ⟨p, -, rfl⟩ := List.mem_map.mp hx
        exact le_trans (getD_nonneg h3 _) (le_foldr_max _ _)
  | signature b =>
    intro bits hb
    cases hb
    exact ⟨b, rfl, List.forall₂_same.mpr fun _ _ => le_refl _, hsig b rfl⟩

theorem bitsLe_env : ∀ (net : Net) (rs : List BwRule) (cs : List ℕ) (ss : List LState) (env : List (Except String (List ℤ)))
    (env' : List (Except String (List EF))), List.Forall₂ BitsLe env env' → (∀ c ∈ cs, c ≤ 1) →
    (∀ (i : ℕ) nd ins s q, net[i]? = some (nd, ins) → ss[i]? = some s → nd.site = some q → SiteTraced q s.q) →
    (∀ bits, BwRule.signature bits ∈ rs → ∀ b ∈ bits, 0 ≤ b) →
    List.Forall₂ BitsLe (actBitsEnv net rs cs ss env) (actBwEnvE net rs cs ss env')
  | (nd, ins) :: net, r :: rs, c :: cs, s :: ss, env, env', h, hc, hs, hsig => by
    unfold actBitsEnv actBwEnvE
    refine bitsLe_env net rs cs ss _ _ (List.rel_append h (.cons ?_ .nil)) (fun c' hc' => hc c' (by simp [hc']))
      (fun i nd ins s q h1 h2 h3 => hs (i + 1) nd ins s q h1 h2 h3) (fun bits hb => hsig bits (by simp [hb]))
    exact bitsLe_of h (hc c (by simp)) (fun q hq => hs 0 nd ins s q rfl rfl hq) (fun bits hb => hsig bits (by simp [hb]))
  | [], _, _, _, env, env', h, _, _, _ => by simpa [actBitsEnv, actBwEnvE] using h
  | _ :: _, [], _, _, env, env', h, _, _, _ => by simpa [actBitsEnv, actBwEnvE] using h
  | _ :: _, _ :: _, [], _, env, env', h, _, _, _ => by simpa [actBitsEnv, actBwEnvE] using h
  | _ :: _, _ :: _, _ :: _, [], env, env', h, _, _, _ => by simpa [actBitsEnv, actBwEnvE] using h

/-- the weight bits counted with some rounding `fl` are not negative and at most those of the training-time estimate -/
def LinLayer.BitsOk (L : LinLayer) (fl : ℚ → ℚ) (n : ℕ) : Prop :=
  (∀ j, 0 ≤ (L.kernelBits fl n).getD j 0) ∧ List.Forall₂ (· ≤ ·) (L.kernelBits fl n) (L.kernelBitsTrain n)

theorem trainBops_ge (fl : ℚ → ℚ) (L : LinLayer) (n pf : ℕ) (inBits inBw : List ℤ) (hin : ∀ b ∈ inBits, 0 ≤ b)
    (hi : List.Forall₂ (· ≤ ·) inBits inBw) (hk : L.BitsOk fl n) (rule : BopsRule) (hrule : rule = .dense n ∨ rule = .conv n pf) :
    ∃ b, (Node.linear L).exactBops rule fl (.ok inBits) = .ok b ∧ b ≤ (Node.linear L).trainBops rule inBw := by
  have h0 : L.mulBits inBits (L.kernelBits fl n) ≤ L.mulBits inBw (L.kernelBitsTrain n) := by
    rw [mulBits_eq, mulBits_eq]
    refine Finset.sum_le_sum fun p _ => ?_
    exact tapSum_mono (L.taps p) (getD_nonneg hin) hk.1 (getD_le hi) (getD_le hk.2)
  have h1 : (L.mulBits inBits (L.kernelBits fl n) : ℚ) ≤ L.mulBits inBw (L.kernelBitsTrain n) := by exact_mod_cast h0
  rcases hrule with rfl | rfl
  · exact ⟨_, rfl, h1⟩
  · refine ⟨_, rfl, ?_⟩
    exact div_le_div_of_nonneg_right (mul_le_mul_of_nonneg_right h1 (Nat.cast_nonneg _)) (Nat.cast_nonneg _)

theorem layerLoss_ge (fl : ℚ → ℚ) (net : Net) (m : BopsModel) (ss : List LState) (hc : ∀ c ∈ m.calls, c ≤ 1)
    (hs : ∀ (i : ℕ) nd ins s q, net[i]? = some (nd, ins) → ss[i]? = some s → nd.site = some q → SiteTraced q s.q)
    (hsig : ∀ bits, BwRule.signature bits ∈ m.bw → ∀ b ∈ bits, 0 ≤ b) (i : ℕ) (L : LinLayer) (ins : List ℕ) (n pf : ℕ) (rule : BopsRule)
    (hi : net[i]? = some (.linear L, ins)) (hr : m.bops[i]? = some rule) (hrule : rule = .dense n ∨ rule = .conv n pf)
    (hk : L.BitsOk fl n) (b : ℚ) (hb : net.exactBops m fl i ss = .ok b) (beta : ℚ) :
    ∃ t : ℚ, net.layerLoss m beta ss i = .ok (.fin (t * beta)) ∧ b ≤ t := by
  unfold Net.exactBops at hb
  rw [hi, hr] at hb
  cases hcc : m.calls[i]? with
  | none => rw [hcc] at hb; cases hb
  | some c =>
    rw [hcc] at hb
    dsimp only at hb
    have henv := bitsLe_env net m.bw m.calls ss
      (List.replicate m.nInputs (.error "'InputLayer' object has no attribute 'act_bw_exact'"))
      (List.replicate m.nInputs (.error "'InputLayer' object has no attribute 'act_bw'"))
      (by
        induction m.nInputs with
        | zero => exact .nil
        | succ k ih => exact .cons (BitsLe.error _ _) ih) hc hs hsig
    generalize hg : lastBits c _ ins = lb at hb
    cases lb with
    | error e => rcases hrule with rfl | rfl <;> cases hb
    | ok bits =>
      obtain ⟨t, h1, h2, h3⟩ := bitsLe_last henv (hc c (List.mem_of_getElem? hcc)) ins bits hg
      obtain ⟨b', h4, h5⟩ := trainBops_ge fl L n pf bits t h3 h2 hk rule hrule
      rw [hb] at h4
      cases h4
      refine ⟨_, ?_, h5⟩
      unfold Net.layerLoss
      rw [hi, hr, hcc]
      rcases hrule with rfl | rfl <;>
      · simp only [bind, Except.bind, h1, pure, Except.pure]
        rw [bopsLoss_fin]

theorem evalLoss_ge (fl : ℚ → ℚ) (net : Net) (m : BopsModel) (ss : List LState) (hc : ∀ c ∈ m.calls, c ≤ 1)
    (hs : ∀ (i : ℕ) nd ins s q, net[i]? = some (nd, ins) → ss[i]? = some s → nd.site = some q → SiteTraced q s.q)
    (hsig : ∀ bits, BwRule.signature bits ∈ m.bw → ∀ b ∈ bits, 0 ≤ b)
    (hr : ∀ (i : ℕ) nd ins r, net[i]? = some (nd, ins) → m.bops[i]? = some r → r ≠ .none →
      ∃ L n pf, nd = .linear L ∧ (r = .dense n ∨ r = .conv n pf) ∧ L.BitsOk fl n)
    (B : ℚ) (hB : sumBops (net.exactBops m fl) ss (List.range net.length) = .ok B) (beta task : ℚ) :
    ∃ t : ℚ, net.evalLoss m (fun _ => beta) ss task = .ok (.fin (task + t * beta)) ∧ B ≤ t := by
  have hlayer : ∀ i b, net.exactBops m fl i ss = .ok b → ∃ t : ℚ, net.layerLoss m beta ss i = .ok (.fin (t * beta)) ∧ b ≤ t := by
    intro i b hb
    cases hi : net[i]? with
    | none => unfold Net.exactBops at hb; rw [hi] at hb; cases hb
    | some x =>
      obtain ⟨nd, ins⟩ := x
      cases hm : m.bops[i]? with
      | none => unfold Net.exactBops at hb; rw [hi, hm] at hb; cases hb
      | some r =>
        by_cases h0 : r = .none
        · subst h0
          cases hcc : m.calls[i]? with
          | none => unfold Net.exactBops at hb; rw [hi, hm, hcc] at hb; cases hb
          | some c =>
            unfold Net.exactBops at hb
            rw [hi, hm, hcc] at hb
            cases hb
            refine ⟨0, ?_, le_refl _⟩
            unfold Net.layerLoss
            rw [hi, hm, hcc, zero_mul]
            rfl
        · obtain ⟨L, n, pf, rfl, h1, h2⟩ := hr i nd ins r hi hm h0
          exact layerLoss_ge fl net m ss hc hs hsig i L ins n pf r hi hm h1 h2 b hb beta
  have hsum : ∀ (I : List ℕ) (B : ℚ), sumBops (net.exactBops m fl) ss I = .ok B →
      ∃ (ls : List EF) (t : ℚ), (I.mapM fun i => net.layerLoss m beta ss i) = .ok ls ∧ EF.sum ls = .fin (t * beta) ∧ B ≤ t := by
    intro I
    induction I with
    | nil =>
      intro B hB
      cases hB
      exact ⟨[], 0, by rw [List.mapM_nil]; rfl, by rw [zero_mul]; rfl, le_refl _⟩
    | cons i I ih =>
      intro B hB
      unfold sumBops at hB
      cases h1 : net.exactBops m fl i ss with
      | error e => rw [h1] at hB; cases hB
      | ok x =>
        cases h2 : sumBops (net.exactBops m fl) ss I with
        | error e => rw [h1, h2] at hB; cases hB
        | ok y =>
          rw [h1, h2] at hB
          cases hB
          obtain ⟨ls, t, h3, h4, h5⟩ := ih y h2
          obtain ⟨u, h6, h7⟩ := hlayer i x h1
          refine ⟨.fin (u * beta) :: ls, u + t, ?_, ?_, add_le_add h7 h5⟩
          · rw [List.mapM_cons]
            simp only [bind, Except.bind, h6, h3, pure, Except.pure]
          · change EF.add _ (EF.sum ls) = _
            rw [h4, add_mul]
            rfl
  obtain ⟨ls, t, h1, h2, h3⟩ := hsum _ B hB
  refine ⟨t, ?_, h3⟩
  unfold Net.evalLoss
  simp only [bind, Except.bind, h1, pure, Except.pure]
  rw [h2]
  rfl

theorem bitsOk_id (L : LinLayer) (n : ℕ) (hf : ∀ j < n, L.kq.clip (L.kfbw j) ≤ 31) : L.BitsOk id n :=
  ⟨kernelBits_nonneg L id n hf, kernelBitsTrain_ge L n hf⟩

/-- **C76**, every layer with a kernel of a whole model (reshapes, concatenations and pooling in between): if its exact BOPs can be computed after
calibration, then in the same state its term of the loss is `beta` times a number of BOPs that is at least the exact one. Missing: the weight bits are
those of exact arithmetic, as in `C76_train_ge_exact_partial`. -/
theorem C76_model_layer_partial (net : Net) (m : BopsModel) (ss : List LState) (hc : ∀ c ∈ m.calls, c ≤ 1)
    (hs : ∀ (i : ℕ) nd ins s q, net[i]? = some (nd, ins) → ss[i]? = some s → nd.site = some q → SiteTraced q s.q)
    (hsig : ∀ bits, BwRule.signature bits ∈ m.bw → ∀ b ∈ bits, 0 ≤ b) (i : ℕ) (L : LinLayer) (ins : List ℕ) (n pf : ℕ) (rule : BopsRule)
    (hi : net[i]? = some (.linear L, ins)) (hr : m.bops[i]? = some rule) (hrule : rule = .dense n ∨ rule = .conv n pf)
    (hf : ∀ j < n, L.kq.clip (L.kfbw j) ≤ 31) (b : ℚ) (hb : net.exactBops m id i ss = .ok b) (beta : ℚ) :
    ∃ t : ℚ, net.layerLoss m beta ss i = .ok (.fin (t * beta)) ∧ b ≤ t :=
  layerLoss_ge id net m ss hc hs hsig i L ins n pf rule hi hr hrule (bitsOk_id L n hf) b hb beta

/-- **C76**, whole models: if the exact BOPs of the model (the sum over its layers) are `B`, then with one `beta` for all layers the loss reported by the
model in the same state is the task loss plus `beta` times a number of BOPs that is at least `B`. Missing: as in `C76_model_layer_partial`. -/
theorem C76_model_partial (net : Net) (m : BopsModel) (ss : List LState) (hc : ∀ c ∈ m.calls, c ≤ 1)
    (hs : ∀ (i : ℕ) nd ins s q, net[i]? = some (nd, ins) → ss[i]? = some s → nd.site = some q → SiteTraced q s.q)
    (hsig : ∀ bits, BwRule.signature bits ∈ m.bw → ∀ b ∈ bits, 0 ≤ b)
    (hr : ∀ (i : ℕ) nd ins r, net[i]? = some (nd, ins) → m.bops[i]? = some r → r ≠ .none →
      ∃ L n pf, nd = .linear L ∧ (r = .dense n ∨ r = .conv n pf) ∧ ∀ j < n, L.kq.clip (L.kfbw j) ≤ 31)
    (B : ℚ) (hB : sumBops (net.exactBops m id) ss (List.range net.length) = .ok B) (beta task : ℚ) :
    ∃ t : ℚ, net.evalLoss m (fun _ => beta) ss task = .ok (.fin (task + t * beta)) ∧ B ≤ t :=
  evalLoss_ge id net m ss hc hs hsig (fun i nd ins r h1 h2 h3 =>
    let ⟨L, n, pf, h4, h5, h6⟩ := hr i nd ins r h1 h2 h3
    ⟨L, n, pf, h4, h5, bitsOk_id L n h6⟩) B hB beta task

theorem netAll_get {P : Node → QState → Prop} : ∀ {net : Net} {ss : List QState}, net.All P ss → ∀ {i : ℕ} {nd : Node} {ins : List ℕ} {s : QState},
    net[i]? = some (nd, ins) → ss[i]? = some s → P nd s
  | (_, _) :: _, _ :: _, h, 0, _, _, _, h1, h2 => by cases h1; cases h2; exact h.1
  | (_, _) :: _, _ :: _, h, _ + 1, _, _, _, h1, h2 => netAll_get h.2 h1 h2
  | [], _, _, _, _, _, _, h1, _ => by cases h1

/-- **C76**, from calibration to the reported loss: after `trace_minmax` over any non-empty dataset (recorded ranges below `2^32`), if the exact BOPs of
the model can be computed and are `B`, the loss the model reports from then on is the task loss plus `beta` times a number of BOPs that is at least `B`.
Missing: as in `C76_model_layer_partial`. -/
theorem C76_calibrated_partial (net : Net) (m : BopsModel) (ss : List QState) (bsz : ℕ) (data : List (List (List ℚ)))
    (hw : net.All Node.WF ss) (hbsz : 0 < bsz) (hne : data ≠ []) (hc : ∀ c ∈ m.calls, c ≤ 1)
    (hsig : ∀ bits, BwRule.signature bits ∈ m.bw → ∀ b ∈ bits, 0 ≤ b)
    (hr : ∀ (i : ℕ) nd ins r, net[i]? = some (nd, ins) → m.bops[i]? = some r → r ≠ .none →
      ∃ L n pf, nd = .linear L ∧ (r = .dense n ∨ r = .conv n pf) ∧ ∀ j < n, L.kq.clip (L.kfbw j) ≤ 31) :
    ∃ ss' preds, net.trace ss bsz data = .ok (ss', preds) ∧
      (net.All Bounded ss' → ∀ B, sumBops (net.exactBops m id) (ss'.map fun s => ⟨s, false⟩) (List.range net.length) = .ok B → ∀ beta task,
        ∃ t : ℚ, net.evalLoss m (fun _ => beta) (ss'.map fun s => ⟨s, false⟩) task = .ok (.fin (task + t * beta)) ∧ B ≤ t) := by
  obtain ⟨ss', h1, -, h3, h4, h5⟩ := trace_spec net ss bsz data hw hbsz
  refine ⟨ss', _, h1, fun hb B hB beta task => ?_⟩
  obtain ⟨x0, hx0⟩ := List.exists_mem_of_ne_nil data hne
  have htr : net.All Node.AllTraced ss' := traced_all h3 h4 hb (h5 x0 hx0)
  refine C76_model_partial net m _ hc ?_ hsig hr B hB beta task
  intro i nd ins s q h6 h7 h8
  rw [List.getElem?_map] at h7
  obtain ⟨s', h9, rfl⟩ := Option.map_eq_some_iff.mp h7
  exact ⟨(netAll_get h3 h6 h9).shape q h8, netAll_get htr h6 h9 q h8⟩

theorem exBops_traced : ∀ (i : ℕ) nd ins s q, exBopsNet[i]? = some (nd, ins) → exBopsStates[i]? = some s → nd.site = some q →
    SiteTraced q s.q := by
  intro i nd ins s q h1 h2 h3
  obtain ⟨⟨q0, h4, h5, -⟩, ⟨⟨q1, h6, h7, -⟩, -⟩⟩ := exBops_rules
  match i, h1, h2 with
  | 0, h1, h2 => cases h1; cases h2; rw [h4] at h3; cases h3; exact h5
  | 1, h1, h2 => cases h1; cases h2; rw [h6] at h3; cases h3; exact h7
  | 2, h1, _ => cases h1; cases h3
  | 3, h1, _ => cases h1; cases h3
  | i + 4, h1, _ => cases h1

theorem exBops_kernels : ∀ (i : ℕ) nd ins r, exBopsNet[i]? = some (nd, ins) → exBopsModel.bops[i]? = some r → r ≠ .none →
    ∃ L n pf, nd = .linear L ∧ (r = .dense n ∨ r = .conv n pf) ∧ ∀ j < n, L.kq.clip (L.kfbw j) ≤ 31 := by
  intro i nd ins r h1 h2 h3
  match i, h1, h2 with
  | 0, _, h2 => cases h2; exact absurd rfl h3
  | 1, h1, h2 =>
    cases h1
    cases h2
    exact ⟨_, 4, 0, rfl, .inl rfl, fun j _ => by decide +kernel +revert⟩
  | 2, _, h2 => cases h2; exact absurd rfl h3
  | 3, _, h2 => cases h2; exact absurd rfl h3
  | i + 4, h1, _ => cases h1

-- the network of BitsFlow: 15 exact BOPs, 60 in training
example : ∃ t : ℚ, exBopsNet.evalLoss exBopsModel (fun _ => 1 / 100) exBopsStates (1 / 2) = .ok (.fin (1 / 2 + t * (1 / 100))) ∧ 15 ≤ t :=
  C76_model_partial exBopsNet exBopsModel exBopsStates (by decide) exBops_traced (by intro bits h; simp [exBopsModel] at h) exBops_kernels 15
    (by decide +kernel) _ _

theorem exBops_wf : exBopsNet.All Node.WF (exBopsStates.map LState.q) := by
  have c2 : Compat [2] [2] := by decide
  refine ⟨⟨?_, ?_, ?_, ?_, ?_⟩, ⟨?_, ?_, ?_, ?_, ?_⟩, ⟨?_, ?_, ?_, ?_, ?_⟩, ⟨?_, ?_, ?_, ?_, ?_⟩, trivial⟩
  all_goals first
    | (intro _ _ _ h; cases h)
    | (intro q hq; cases hq; done)
    | (intro q hq; cases hq; first
        | exact c2
        | exact .inl rfl
        | (intro e; show (-32 : ℚ) ≤ 1; norm_num)
        | (intro e; show QConf.clip _ 1 = 1; decide +kernel)
        | (intro e; show QConf.clip _ 2 = 2; decide +kernel))

example := C76_calibrated_partial exBopsNet exBopsModel (exBopsStates.map LState.q) 1 [[[1, 3 / 2]], [[-2, 1 / 3]]] exBops_wf (by decide) (by simp)
  (by decide) (by intro bits h; simp [exBopsModel] at h) exBops_kernels

-- calibrating the same network on two samples: 13 exact BOPs, and the loss counts at least as many
example : (match exBopsNet.trace (exBopsStates.map LState.q) 1 [[[1, 3 / 2]], [[-2, 1 / 3]]] with
    | .ok (ss', _) => (match sumBops (exBopsNet.exactBops exBopsModel id) (ss'.map fun s => ⟨s, false⟩) (List.range 4),
        exBopsNet.evalLoss exBopsModel (fun _ => 1) (ss'.map fun s => ⟨s, false⟩) 0 with
      | .ok B, .ok (.fin v) => decide (B = 13 ∧ 13 ≤ v)
      | _, _ => false)
    | .error _ => false) = true := by decide +kernel

end HGQ
