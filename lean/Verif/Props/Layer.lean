import Verif.Lemmas.Layer

/-!
C21–C25: a dense/convolution layer equals its proxy.
-/

namespace HGQ
open Spec

/-- Element `e` of a quantizer has recorded the range `[lo, hi]`: both ends are multiples of the resolution (they are
outputs of the quantizer, see `C16_record_is_extrema`), below `2^32` in magnitude, and the resolution is at most
`2^32`. -/
structure Traced (s : QState) (e : ℕ) (lo hi : ℚ) : Prop where
  mn : s.mn e = (lo : WithTop ℚ)
  mx : s.mx e = (hi : WithBot ℚ)
  le : lo ≤ hi
  glo : ∃ n : ℤ, lo = n * (2 : ℚ) ^ (-tfRound (s.fbw e))
  ghi : ∃ n : ℤ, hi = n * (2 : ℚ) ^ (-tfRound (s.fbw e))
  lb : -(2 : ℚ) ^ (32 : ℤ) ≤ lo
  ub : hi < (2 : ℚ) ^ (32 : ℤ)
  fb : -32 ≤ s.fbw e

/-- Well-formed layer and state: the quantizer broadcasts against the output, its bitwidths are within the clip range
(true after any call, `C15_clip_invariant`), and training/inference and deployment use the same channel location
(always for dense layers and channels_last convolutions) or there is a single bitwidth or no bias. -/
structure LinLayer.WF (L : LinLayer) (s : QState) : Prop where
  shape : Compat L.outShape L.qShape
  clip : ∀ e, L.paq.clip (s.fbw e) = s.fbw e
  loc : L.jitLoc = L.chLoc ∨ (prodL L.qShape = 1 ∧ L.qShape ≠ []) ∨ L.bias = none

/-! ### C22 -/

/-- C22: if `can_bias_cover_rnd` is `True`, all output positions of one bias channel use the same element of the
quantizer, hence share one bitwidth; and this element is the only one entering the per-channel maximum. -/
theorem C22_one_bitwidth_per_channel (biasShape : Option (List ℕ)) (outShape qShape : List ℕ) (loc : ChLoc)
    (hc : Compat outShape qShape) (h : canBiasCoverRnd biasShape (1 :: qShape) loc = true)
    (p p' : ℕ) (hp : p < prodL outShape) (hp' : p' < prodL outShape)
    (hch : chanOf outShape loc p = chanOf outShape loc p') (fbw : ℕ → ℚ) :
    fbw (elemOf outShape qShape p) = fbw (elemOf outShape qShape p') ∧
      maxFbw fbw (redElems qShape loc (chanOf outShape loc p)) = fbw (elemOf outShape qShape p) := by
  have hm := elemOf_mem_redElems hc loc hp'
  rw [← hch] at hm
  refine ⟨congrArg fbw (cover_one_elem hc h hp hm).symm, ?_⟩
  apply maxFbw_const (List.ne_nil_of_mem (elemOf_mem_redElems hc loc hp))
  intro e he
  rw [cover_one_elem hc h hp he]

-- a (2,2,3) output with a per-channel quantizer, and a scalar one
example : Compat [2, 2, 3] [1, 1, 3] ∧ canBiasCoverRnd (some [3]) (1 :: [1, 1, 3]) .last = true ∧
    chanOf [2, 2, 3] .last 2 = chanOf [2, 2, 3] .last 11 ∧ elemOf [2, 2, 3] [1, 1, 3] 11 = 2 := by decide
example : canBiasCoverRnd (some [3]) (1 :: [1, 1, 1]) .first = true := by decide
-- per-position bitwidths: not coverable
example : canBiasCoverRnd (some [3]) (1 :: [2, 2, 3]) .last = false := by decide

/-- C22 is sharp in the other direction for `channels_last`: whenever each channel of a layer with bias has its own
single bitwidth (quantizer shape `1 × … × 1 × C`), the answer is `True`. -/
theorem C22_per_channel_last (n C : ℕ) :
    canBiasCoverRnd (some [C]) (1 :: (List.replicate n 1 ++ [C])) .last = true := by
  have hr : ∀ n, prodL (List.replicate n 1) = 1 := by
    intro n; induction n with
    | zero => rfl
    | succ n ih => rw [List.replicate_succ, prodL, ih]
  have h1 : (1 :: (List.replicate n 1 ++ [C])).dropLast = List.replicate (n + 1) 1 := by
    rw [← List.cons_append, List.dropLast_concat, List.replicate_succ]
  unfold canBiasCoverRnd
  simp only [h1, hr]
  by_cases h2 : prodL (1 :: (List.replicate n 1 ++ [C])) = 1
  · simp [h2]
  · simp [h2]

/-- For `channels_first` the answer is `True` only for a scalar quantizer: per-channel bitwidths are never accepted
(the code looks at the batch dimension `quantizer_shape[0:1]`). -/
theorem C22_channels_first_only_scalar (biasShape : Option (List ℕ)) (qShape : List ℕ)
    (h : canBiasCoverRnd biasShape (1 :: qShape) .first = true) : ∀ q ∈ qShape, q = 1 := by
  rcases cover_shape h with h | ⟨h, _⟩
  · exact h
  · cases h

/-! ### bias of the two models -/

theorem redElems_one {qs : List ℕ} (h1 : prodL qs = 1) (hne : qs ≠ []) (loc : ChLoc) (c : ℕ) :
    redElems qs loc c = [0] := by
  have hall := prodL_eq_one h1
  have hat : atLoc loc qs = 1 := by
    cases loc with
    | first => cases qs with
      | nil => exact absurd rfl hne
      | cons a l => exact hall a (by simp)
    | last =>
      change qs.getLastD 0 = 1
      rw [List.getLastD_eq_getLast?, List.getLast?_eq_some_getLast hne]
      exact hall _ (List.getLast_mem hne)
  have h0 : atLoc loc (unravel qs 0) = 0 := by
    have hz : ∀ l : List ℕ, ∀ i ∈ unravel l 0, i = 0 := by
      intro l
      induction l with
      | nil => simp [unravel]
      | cons a l ih => simpa [unravel] using ih
    cases loc with
    | first =>
      unfold atLoc
      cases hu : unravel qs 0 with
      | nil => rfl
      | cons a l => exact hz qs a (by rw [hu]; simp)
    | last =>
      change (unravel qs 0).getLastD 0 = 0
      rw [List.getLastD_eq_getLast?]
      cases hu : (unravel qs 0).getLast? with
      | none => rfl
      | some a => exact hz qs a (List.mem_of_getLast? hu)
  unfold redElems
  rw [h1, hat]
  simp [h0, List.range_succ]

theorem LinLayer.WF.qbias {L : LinLayer} {s : QState} (h : L.WF s) {b : ℕ → ℚ} (hb : L.bias = some b) (c : ℕ) :
    L.qbias L.jitLoc s.fbw b c = L.qbias L.chLoc s.fbw b c := by
  rcases h.loc with h | ⟨h1, h2⟩ | h
  · rw [h]
  · unfold LinLayer.qbias; rw [redElems_one h1 h2, redElems_one h1 h2]
  · rw [hb] at h; cases h

/-- relation between the pre-activations of the proxy and of the HGQ layer when the channel is not pruned -/
theorem LinLayer.klayer_eq {L : LinLayer} {s : QState} (h : L.WF s) {p : ℕ} (hp : p < prodL L.outShape) (x : List ℚ)
    (hm : L.bias = none ∨ L.biasMask s (L.chan p) = true) :
    L.klayer s x p = L.pre s.fbw x p +
      (if L.paq.strategy ≠ 3 ∧ L.canBiasCover then p2 (-(tfRound (s.fbw (L.elem p))) - 1) else 0) := by
  unfold LinLayer.klayer LinLayer.pre LinLayer.preact
  rw [add_assoc]
  congr 1
  unfold LinLayer.fusedQBias LinLayer.jitBias
  cases hb : L.bias with
  | none =>
    have : L.canBiasCover = false := by unfold LinLayer.canBiasCover canBiasCoverRnd; rw [hb]; rfl
    simp [this]
  | some b =>
    have hm' : L.biasMask s (L.chan p) = true := by
      rcases hm with h0 | h0
      · rw [hb] at h0; cases h0
      · exact h0
    simp only [hm', if_true]
    rw [h.qbias hb]
    split_ifs with hc
    · have := (C22_one_bitwidth_per_channel _ _ _ L.chLoc h.shape hc.2 p p hp hp rfl s.fbw).2
      unfold LinLayer.chan LinLayer.elem
      rw [this]; ring
    · ring

/-! ### C21 -/

/-- C21: when `can_bias_cover_rnd` holds, the proxy's layer (whose bias is raised by half an LSB) followed by plain
truncation to the layer's resolution gives exactly the value HGQ's round-to-nearest gives, at every output position of
a channel whose bias is kept, for every input. -/
theorem C21_rounding_absorbed (L : LinLayer) (s : QState) (h : L.WF s) (x : List ℚ) (p : ℕ) (hp : p < prodL L.outShape)
    (hcov : L.canBiasCover = true) (hst : L.paq.strategy ≠ strategyCode "floor")
    (hm : L.biasMask s (L.chan p) = true) :
    (⌊L.klayer s x p * (2 : ℚ) ^ tfRound (s.fbw (L.elem p))⌋ : ℚ) * (2 : ℚ) ^ (-tfRound (s.fbw (L.elem p)))
      = L.quant s x p := by
  have hst' : L.paq.strategy ≠ 3 := by simpa [strategyCode] using hst
  unfold LinLayer.quant
  rw [h.clip, evalQ_round hst', LinLayer.klayer_eq h hp x (.inr hm), if_pos ⟨hst', hcov⟩]
  rw [← flr_half_shift]
  rfl

/-- C21 as a bare identity: truncating `z + (b + LSB/2)` equals rounding `z + b` half up, for all reals
(here rationals) and all resolutions. -/
theorem C21_half_lsb (z b : ℚ) (f : ℤ) :
    ⌊(z + ((2 : ℚ) ^ (-f - 1) + b)) * (2 : ℚ) ^ f⌋ = ⌊(z + b) * (2 : ℚ) ^ f + 1 / 2⌋ := by
  have := flr_half_shift (z + b) f
  have e : z + ((2 : ℚ) ^ (-f - 1) + b) = z + b + p2 (-f - 1) := by
    change z + (p2 (-f - 1) + b) = _; ring
  rw [e]; exact this

/-! ### C23 -/

theorem actBw_pos_iff {s : QState} {e : ℕ} {lo hi : ℚ} (ht : Traced s e lo hi) (relu : Bool) :
    ¬ 0 < actBw ((s.mn e).untopD 0) ((s.mx e).unbotD 0) (s.fbw e) relu ↔
      (if relu then hi ≤ 0 else lo = 0 ∧ hi = 0) := by
  rw [ht.mn, ht.mx, WithTop.untopD_coe, WithBot.unbotD_coe]
  have hf' : -32 ≤ tfRound (s.fbw e) := tfRound_ge (by exact_mod_cast ht.fb)
  constructor
  · intro h
    have h0 := exact_zero_of_actBw ht.fb ht.glo ht.ghi ht.le h
    cases relu with
    | true =>
      simp only [if_true]
      have hc := bitsExact_pos_covers (mn := lo) ht.ghi le_rfl ht.ub
      have := isKif_width_zero (bitsExact_wf lo hi (s.fbw e) true hf').1 h0 hc
      exact max_eq_right_iff.mp this
    | false =>
      simp only [Bool.false_eq_true, if_false]
      have hw := (bitsExact_wf lo hi (s.fbw e) false hf').1
      exact ⟨isKif_width_zero hw h0 (bitsExact_neg_covers ht.glo le_rfl ht.le ht.lb ht.ub),
        isKif_width_zero hw h0 (bitsExact_neg_covers ht.ghi ht.le le_rfl ht.lb ht.ub)⟩
  · intro h
    cases relu with
    | true =>
      simp only [if_true] at h
      have : max hi 0 = 0 := max_eq_right h
      simp [actBw, bitsApprox, this, floorLog2, reluBits, WithBot.map]
      rfl
    | false =>
      simp only [Bool.false_eq_true, if_false] at h
      rw [h.1, h.2]
      simp [actBw, bitsApprox, floorLog2, reluBits]

/-- C23: the deployed bias of a channel is forced to 0 exactly if nothing but 0 was recorded at every position of the
channel (nothing positive, for a relu layer). -/
theorem C23_masked_iff (L : LinLayer) (s : QState) (c : ℕ) (lo hi : ℕ → ℚ)
    (ht : ∀ p < prodL L.outShape, L.chan p = c → Traced s (L.elem p) (lo p) (hi p)) :
    L.biasMask s c = false ↔
      ∀ p < prodL L.outShape, L.chan p = c → if L.reluAct then hi p ≤ 0 else lo p = 0 ∧ hi p = 0 := by
  unfold LinLayer.biasMask
  rw [List.any_eq_false]
  constructor
  · intro h p hp hc
    have := h p (List.mem_range.mpr hp)
    rw [Bool.and_eq_true, not_and] at this
    exact (actBw_pos_iff (ht p hp hc) _).mp (by simpa using this (by simpa using hc))
  · intro h p hp
    have hp' := List.mem_range.mp hp
    rw [Bool.and_eq_true, not_and]
    intro hc
    have hc' : L.chan p = c := by simpa using hc
    simpa using (actBw_pos_iff (ht p hp' hc') _).mpr (h p hp' hc')

/-- C23: and the deployed bias then is 0. -/
theorem C23_masked_bias (L : LinLayer) (s : QState) (c : ℕ) (h : L.biasMask s c = false) : L.fusedQBias s c = 0 := by
  unfold LinLayer.fusedQBias
  cases L.bias with
  | none => rfl
  | some b => simp [h]

/-- C23: in a pruned channel the proxy returns 0 for every input and every overflow mode. -/
theorem C23_pruned_proxy_zero (L : LinLayer) (s : QState) (S : Sat) (x : List ℚ) (p : ℕ) (hp : p < prodL L.outShape)
    (lo hi : ℚ) (ht : Traced s (L.elem p) lo hi) (hm : L.biasMask s (L.chan p) = false) :
    L.proxyOut s S x p = 0 := by
  have h : ¬ 0 < actBw ((s.mn (L.elem p)).untopD 0) ((s.mx (L.elem p)).unbotD 0) (s.fbw (L.elem p)) L.reluAct := by
    unfold LinLayer.biasMask at hm
    rw [List.any_eq_false] at hm
    have := hm p (List.mem_range.mpr hp)
    rw [Bool.and_eq_true, not_and] at this
    simpa using this (by simp)
  rw [ht.mn, ht.mx, WithTop.untopD_coe, WithBot.unbotD_coe] at h
  have h0 := exact_zero_of_actBw ht.fb ht.glo ht.ghi ht.le h
  unfold LinLayer.proxyOut LinLayer.bitsAt
  rw [ht.mn, ht.mx, WithTop.untopD_coe, WithBot.unbotD_coe]
  cases hr : L.reluAct <;> rw [hr] at h0
  · simp only [Bool.false_eq_true, if_false]; exact proxyQ_zero h0 _ _ _
  · simp only [if_true]; exact proxyQ_zero h0 _ _ _

/-- C23: and the HGQ layer returns 0 there on every in-range input. -/
theorem C23_pruned_hgq_zero (L : LinLayer) (s : QState) (x : List ℚ) (p : ℕ) (hp : p < prodL L.outShape)
    (lo hi : ℚ) (ht : Traced s (L.elem p) lo hi) (hm : L.biasMask s (L.chan p) = false)
    (h1 : lo ≤ L.quant s x p) (h2 : L.quant s x p ≤ hi) : L.post (L.quant s x p) = 0 := by
  have h : ¬ 0 < actBw ((s.mn (L.elem p)).untopD 0) ((s.mx (L.elem p)).unbotD 0) (s.fbw (L.elem p)) L.reluAct := by
    unfold LinLayer.biasMask at hm
    rw [List.any_eq_false] at hm
    have := hm p (List.mem_range.mpr hp)
    rw [Bool.and_eq_true, not_and] at this
    simpa using this (by simp)
  have := (actBw_pos_iff ht _).mp h
  unfold LinLayer.post
  cases hr : L.reluAct <;> rw [hr] at this
  · simp only [Bool.false_eq_true, if_false] at this ⊢
    rw [this.1] at h1; rw [this.2] at h2; exact le_antisymm h2 h1
  · simp only [if_true] at this ⊢
    exact max_eq_right (le_trans h2 this)

/-! ### C24 -/

theorem pre_round {L : LinLayer} {s : QState} (h : L.WF s) {p : ℕ} (hp : p < prodL L.outShape) (x : List ℚ)
    (hm : L.bias = none ∨ L.biasMask s (L.chan p) = true) :
    rndMap (proxyRnd L.paq.strategy L.canBiasCover) (L.klayer s x p * p2 (tfRound (s.fbw (L.elem p))))
      * p2 (-tfRound (s.fbw (L.elem p))) = L.quant s x p := by
  unfold LinLayer.quant
  rw [h.clip, evalQ_eq, LinLayer.klayer_eq h hp x hm]
  congr 1
  unfold proxyRnd
  by_cases h3 : L.paq.strategy = 3
  · simp [h3, rndMap, rndTRN]
  · by_cases hc : L.canBiasCover = true
    · simp only [h3, hc, ne_eq, not_false_eq_true, not_true_eq_false, and_false, if_false, if_true, and_self]
      change ((flr _ : ℤ) : ℚ) = _
      rw [flr_half_shift]
    · simp [h3, hc, rndMap, rndRND]

/-- C24: for a dense or convolution layer without relu, any kernel, bias, bitwidths and connectivity, both overflow
modes: wherever the quantized output is inside the recorded range, the proxy returns exactly the HGQ output. -/
theorem C24_linear_eq_proxy (L : LinLayer) (s : QState) (h : L.WF s) (hrelu : L.reluAct = false) (aggressive : Bool)
    (x : List ℚ) (p : ℕ) (hp : p < prodL L.outShape) (lo hi : ℚ) (ht : Traced s (L.elem p) lo hi)
    (h1 : lo ≤ L.quant s x p) (h2 : L.quant s x p ≤ hi) :
    L.proxyOut s (proxySat aggressive) x p = L.post (L.quant s x p) := by
  have hS : proxySat aggressive ≠ .SAT_SYM := by unfold proxySat; split_ifs <;> simp
  by_cases hm : L.bias = none ∨ L.biasMask s (L.chan p) = true
  · have hr := pre_round h hp x hm
    unfold LinLayer.proxyOut LinLayer.bitsAt LinLayer.post
    rw [ht.mn, ht.mx, WithTop.untopD_coe, WithBot.unbotD_coe]
    simp only [hrelu, Bool.false_eq_true, if_false]
    rw [proxyQ_bitsExact _ hS (tfRound_ge (by exact_mod_cast ht.fb)) ht.lb ht.ub (by rw [hr]; exact h1)
      (by rw [hr]; exact h2), hr]
  · push Not at hm
    have hm' : L.biasMask s (L.chan p) = false := by simpa using hm.2
    rw [C23_pruned_proxy_zero L s _ x p hp lo hi ht hm', C23_pruned_hgq_zero L s x p hp lo hi ht hm' h1 h2]

/-! ### C25 -/

theorem reluCtx_of {L : LinLayer} {s : QState} (h : L.WF s) {x : List ℚ} {p : ℕ} (hp : p < prodL L.outShape)
    {lo hi : ℚ} (ht : Traced s (L.elem p) lo hi)
    (h1 : lo ≤ L.quant s x p) (h2 : L.quant s x p ≤ hi)
    (hall : ∀ e < prodL L.qShape, -32 ≤ s.fbw e) :
    ReluCtx lo hi (s.fbw (L.elem p)) (L.quant s x p) (L.reluKif s).k (L.reluKif s).i (L.reluKif s).f := by
  have he : L.elem p < prodL L.qShape := elemOf_lt h.shape hp
  set ks := (List.range (prodL L.qShape)).map fun e =>
    bitsExact ((s.mn e).untopD 0) ((s.mx e).unbotD 0) (s.fbw e) false with hks
  have hmem : bitsExact lo hi (s.fbw (L.elem p)) false ∈ ks := by
    rw [hks]
    refine List.mem_map.mpr ⟨L.elem p, List.mem_range.mpr he, ?_⟩
    rw [ht.mn, ht.mx, WithTop.untopD_coe, WithBot.unbotD_coe]
  refine ⟨tfRound_ge (by exact_mod_cast ht.fb), ht.lb, ht.ub, ht.ghi, ?_, h1, h2, ?_, ?_, ?_, ?_⟩
  · unfold LinLayer.quant; rw [h.clip]; exact evalQ_grid _ _ _
  · have hne : ks.map (·.k) ≠ [] := by
      intro hc
      have := List.map_eq_nil_iff.mp hc
      rw [this] at hmem; simp at hmem
    have := listMax_mem hne
    obtain ⟨b, hb, hbk⟩ := List.mem_map.mp this
    obtain ⟨e, he', rfl⟩ := List.mem_map.mp hb
    change listMax (ks.map (·.k)) = 0 ∨ listMax (ks.map (·.k)) = 1
    rw [← hbk]
    exact (bitsExact_wf _ _ _ _ (tfRound_ge (by exact_mod_cast hall e (List.mem_range.mp he')))).1
  · exact le_listMax (List.mem_map.mpr ⟨_, hmem, rfl⟩)
  · exact le_listMax (List.mem_map.mpr ⟨_, hmem, rfl⟩)
  · exact le_listMax (List.mem_map.mpr ⟨_, hmem, rfl⟩)

theorem relu_aux (L : LinLayer) (s : QState) (h : L.WF s) (hrelu : L.reluAct = true)
    (S : Sat) (hS : S ≠ .SAT_SYM) (x : List ℚ) (p : ℕ) (hp : p < prodL L.outShape)
    (lo hi : ℚ) (ht : Traced s (L.elem p) lo hi)
    (hall : ∀ e < prodL L.qShape, -32 ≤ s.fbw e) (h1 : lo ≤ L.quant s x p) (h2 : L.quant s x p ≤ hi)
    (hov : S = .SAT ∨ S = .WRAP) :
    L.proxyOut s S x p = L.post (L.quant s x p) := by
  by_cases hm : L.bias = none ∨ L.biasMask s (L.chan p) = true
  · have hr := pre_round h hp x hm
    have ctx := reluCtx_of h hp ht h1 h2 hall
    unfold LinLayer.proxyOut LinLayer.bitsAt LinLayer.post
    rw [ht.mn, ht.mx, WithTop.untopD_coe, WithBot.unbotD_coe]
    simp only [hrelu, if_true]
    have hR : proxyRnd L.paq.strategy L.canBiasCover = .TRN ∨ proxyRnd L.paq.strategy L.canBiasCover = .RND := by
      unfold proxyRnd; split_ifs <;> simp
    rcases hR with hR | hR
    · rw [hR] at hr ⊢
      simp only [if_true]
      exact relu_proxy_trn ctx hS hr.symm
    · rw [hR] at hr ⊢
      have e1 : (if Rnd.RND = Rnd.TRN then (0 : ℤ) else if Rnd.RND = Rnd.RND then 1 else 2) = 1 := by simp
      rw [e1]
      exact relu_proxy_rnd ctx hS hr.symm hov
  · push Not at hm
    have hm' : L.biasMask s (L.chan p) = false := by simpa using hm.2
    rw [C23_pruned_proxy_zero L s _ x p hp lo hi ht hm', C23_pruned_hgq_zero L s x p hp lo hi ht hm' h1 h2]

/-- C25: for a dense or convolution layer with relu, any kernel, bias, bitwidths, connectivity and rounding strategy,
both overflow modes: wherever the quantized pre-activation is inside the recorded range, layer, first quantizer, ReLU
and second quantizer of the proxy return exactly the HGQ output. (With `WRAP` the first quantizer may wrap values that
HGQ rounds up to the least recorded value; the second quantizer always undoes this.) -/
theorem C25_relu_eq_proxy (L : LinLayer) (s : QState) (h : L.WF s) (hrelu : L.reluAct = true) (aggressive : Bool)
    (x : List ℚ) (p : ℕ) (hp : p < prodL L.outShape) (lo hi : ℚ) (ht : Traced s (L.elem p) lo hi)
    (hall : ∀ e < prodL L.qShape, -32 ≤ s.fbw e) (h1 : lo ≤ L.quant s x p) (h2 : L.quant s x p ≤ hi) :
    L.proxyOut s (proxySat aggressive) x p = L.post (L.quant s x p) := by
  have hS : proxySat aggressive ≠ .SAT_SYM := by unfold proxySat; split_ifs <;> simp
  have hS' : proxySat aggressive = .SAT ∨ proxySat aggressive = .WRAP := by unfold proxySat; split_ifs <;> simp
  exact relu_aux L s h hrelu _ hS x p hp lo hi ht hall h1 h2 hS'

/-- the strategy stored by `post_build` for `'auto'`, base.py lines 105-106 -/
def autoStrategy (cover : Bool) : ℤ := if cover then 0 else 3

/-- With `rnd_strategy='auto'` the proxy always truncates. -/
theorem C21_auto_truncates (cover : Bool) : proxyRnd (autoStrategy cover) cover = .TRN := by
  cases cover <;> decide

/-! ### Concrete layers: the hypotheses are met, and the excluded cases really fail -/

/-- a 2-input 2-output dense layer with bias -/
def exDense (strategy : ℤ) (qShape : List ℕ) (relu : Bool) : LinLayer where
  outShape := [2]
  qShape := qShape
  chLoc := .last
  jitLoc := .last
  nChan := 2
  taps := fun p => [(0, p), (1, 2 + p)]
  kernel := fun j => [1, -3 / 2, 1 / 2, 1].getD j 0
  kq := ⟨0, true, none, fun _ => 1, 7 / 10⟩
  kfbw := fun _ => 3
  bias := some fun c => [1 / 4, 5 / 8].getD c 0
  reluAct := relu
  paq := ⟨strategy, true, some (-10, 20), fun _ => 1, 7 / 10⟩

/-- bitwidths 1 and 2, ranges [-4, 3.5] and [-2, 1.75] -/
def exState : QState where
  fbw := fun e => if e = 0 then 1 else 2
  mn := fun e => if e = 0 then ((-4 : ℚ) : WithTop ℚ) else ((-2 : ℚ) : WithTop ℚ)
  mx := fun e => if e = 0 then ((7 / 2 : ℚ) : WithBot ℚ) else ((7 / 4 : ℚ) : WithBot ℚ)

theorem exState_traced0 : Traced exState 0 (-4) (7 / 2) :=
  ⟨rfl, rfl, by norm_num, ⟨-8, by decide +kernel⟩, ⟨7, by decide +kernel⟩, by norm_num, by norm_num,
    by norm_num [exState]⟩

theorem exState_traced1 : Traced exState 1 (-2) (7 / 4) :=
  ⟨rfl, rfl, by norm_num, ⟨-8, by decide +kernel⟩, ⟨7, by decide +kernel⟩, by norm_num, by norm_num,
    by norm_num [exState]⟩

theorem exDense_wf (st : ℤ) (r : Bool) : (exDense st [2] r).WF exState :=
  ⟨by change Compat [2] [2]; decide, by
    intro e; change clipByValue (exState.fbw e) (-10) 20 = _
    unfold exState clipByValue; simp only; split_ifs <;> norm_num, .inl rfl⟩

-- C21/C24/C25 on a rounding layer with one bitwidth per channel: the bias absorbs the rounding
example : (exDense 0 [2] false).canBiasCover = true ∧ (exDense 0 [2] false).biasMask exState 0 = true ∧
    (exDense 0 [2] false).quant exState [1, 1 / 3] 0 = 3 / 2 ∧
    (exDense 0 [2] false).proxyOut exState .WRAP [1, 1 / 3] 0 = 3 / 2 := by decide +kernel
example : (exDense 0 [2] true).quant exState [1, 1 / 3] 1 = -1 / 2 ∧
    (exDense 0 [2] true).proxyOut exState .WRAP [1, 1 / 3] 1 = 0 := by decide +kernel
example : ∀ aggressive, (exDense 0 [2] false).proxyOut exState (proxySat aggressive) [1, 1 / 3] 1 = -1 / 2 := by
  intro a
  rw [C24_linear_eq_proxy _ _ (exDense_wf 0 false) rfl a _ 1 (by decide) _ _ exState_traced1 (by decide +kernel)
    (by decide +kernel)]
  decide +kernel

/-- outside the recorded range the two differ (so the range hypothesis of C24 is needed) -/
theorem C24_range_needed :
    (exDense 0 [2] false).proxyOut exState (proxySat true) [8, 0] 0 ≠
      (exDense 0 [2] false).post ((exDense 0 [2] false).quant exState [8, 0] 0) := by decide +kernel

/-- a relu layer without bias and with `standard_round`: the proxy rounds -/
def exWrap : LinLayer where
  outShape := [1]
  qShape := [1]
  chLoc := .last
  jitLoc := .last
  nChan := 1
  taps := fun _ => [(0, 0)]
  kernel := fun _ => 1
  kq := ⟨0, true, none, fun _ => 1, 7 / 10⟩
  kfbw := fun _ => 3
  bias := none
  reluAct := true
  paq := ⟨0, true, none, fun _ => 1, 7 / 10⟩

def exWrapState : QState where
  fbw := fun _ => 0
  mn := fun _ => ((-4 : ℚ) : WithTop ℚ)
  mx := fun _ => ((3 : ℚ) : WithBot ℚ)

-- pre-activation -4.25 rounds to -4, the recorded minimum; the proxy's first quantizer wraps it to 3.5, yet the
-- output is 0 in both models
example : exWrap.quant exWrapState [-17 / 4] 0 = -4 ∧
    (KBI.init 1 4 3).apply .TRN .WRAP (-17 / 4) = 7 / 2 ∧ exWrap.reluKif exWrapState = ⟨1, 2, 0⟩ ∧
    exWrap.proxyOut exWrapState .WRAP [-17 / 4] 0 = 0 := by decide +kernel

/-! ### Where `WF` is needed -/

/-- a channels_first convolution with two channels of different bitwidths: `jit_forward` quantizes the bias with the
default channel location -1, i.e. with the largest bitwidth of all channels, deployment with the channel's own -/
def exFirst : LinLayer where
  outShape := [2, 1]
  qShape := [2, 1]
  chLoc := .first
  jitLoc := .last
  nChan := 2
  taps := fun _ => [(0, 0)]
  kernel := fun _ => 1
  kq := ⟨0, true, none, fun _ => 1, 7 / 10⟩
  kfbw := fun _ => 3
  bias := some fun _ => 1 / 4
  reluAct := false
  paq := ⟨0, true, none, fun _ => 1, 7 / 10⟩

def exFirstState : QState where
  fbw := fun e => if e = 0 then 0 else 2
  mn := fun _ => ((-4 : ℚ) : WithTop ℚ)
  mx := fun _ => ((3 : ℚ) : WithBot ℚ)

/-- Negation of C24 for `data_format='channels_first'` with per-channel bitwidths: the proxy differs from the layer
on an in-range input (conv.py line 122 omits `self.channel_loc`). -/
theorem C61_channels_first_fails :
    Compat exFirst.outShape exFirst.qShape ∧ Traced exFirstState (exFirst.elem 0) (-4) 3 ∧
    -4 ≤ exFirst.quant exFirstState [3 / 10] 0 ∧ exFirst.quant exFirstState [3 / 10] 0 ≤ 3 ∧
    exFirst.quant exFirstState [3 / 10] 0 = 1 ∧ ∀ aggressive, exFirst.proxyOut exFirstState (proxySat aggressive) [3 / 10] 0 = 0 := by
  refine ⟨by decide, ⟨rfl, rfl, by norm_num, ⟨-4, by decide +kernel⟩, ⟨3, by decide +kernel⟩, by norm_num, by norm_num,
    by decide +kernel⟩, by decide +kernel, by decide +kernel, by decide +kernel, ?_⟩
  decide +kernel

/-- Negation of C24 for the first call after bitwidths left the clip range (`bw_clip=(-10,0)`, bitwidth 5): the bias is
quantized before the clipping. HGQ returns 1, the proxy built from the clipped state 0. -/
def exUnclipped : LinLayer := { exFirst with
  outShape := [1], qShape := [1], chLoc := .last, nChan := 1, bias := some fun _ => 15 / 32,
  paq := ⟨3, true, some (-10, 0), fun _ => 1, 7 / 10⟩ }

def exUnclippedState : QState := { exFirstState with fbw := fun _ => 5 }

theorem C62_first_call_fails :
    let s' : QState := { exUnclippedState with fbw := fun e => exUnclipped.paq.clip (exUnclippedState.fbw e) }
    exUnclipped.quant exUnclippedState [9 / 16] 0 = 1 ∧ exUnclipped.quant s' [9 / 16] 0 = 0 ∧
      ∀ aggressive, exUnclipped.proxyOut s' (proxySat aggressive) [9 / 16] 0 = 0 := by
  decide +kernel

/-- C61, the part that holds: a channels_first layer (whatever channel location `jit_forward` uses for the bias) with a
single activation bitwidth. Missing: one bitwidth per channel, where it fails (`C61_channels_first_fails`). -/
theorem C61_single_bitwidth_partial (L : LinLayer) (s : QState) (hs : Compat L.outShape L.qShape)
    (hc : ∀ e, L.paq.clip (s.fbw e) = s.fbw e) (h1 : prodL L.qShape = 1) (hne : L.qShape ≠ [])
    (aggressive : Bool) (x : List ℚ) (p : ℕ) (hp : p < prodL L.outShape) (lo hi : ℚ)
    (ht : Traced s (L.elem p) lo hi) (hall : ∀ e < prodL L.qShape, -32 ≤ s.fbw e)
    (hlo : lo ≤ L.quant s x p) (hhi : L.quant s x p ≤ hi) :
    L.proxyOut s (proxySat aggressive) x p = L.post (L.quant s x p) := by
  have hw : L.WF s := ⟨hs, hc, .inr (.inl ⟨h1, hne⟩)⟩
  cases hr : L.reluAct with
  | false => exact C24_linear_eq_proxy L s hw hr aggressive x p hp lo hi ht hlo hhi
  | true => exact C25_relu_eq_proxy L s hw hr aggressive x p hp lo hi ht hall hlo hhi

/-- C61, the part that holds: a channels_first layer without a bias, with any bitwidths. -/
theorem C61_no_bias_partial (L : LinLayer) (s : QState) (hs : Compat L.outShape L.qShape)
    (hc : ∀ e, L.paq.clip (s.fbw e) = s.fbw e) (hb : L.bias = none)
    (aggressive : Bool) (x : List ℚ) (p : ℕ) (hp : p < prodL L.outShape) (lo hi : ℚ)
    (ht : Traced s (L.elem p) lo hi) (hall : ∀ e < prodL L.qShape, -32 ≤ s.fbw e)
    (hlo : lo ≤ L.quant s x p) (hhi : L.quant s x p ≤ hi) :
    L.proxyOut s (proxySat aggressive) x p = L.post (L.quant s x p) := by
  have hw : L.WF s := ⟨hs, hc, .inr (.inr hb)⟩
  cases hr : L.reluAct with
  | false => exact C24_linear_eq_proxy L s hw hr aggressive x p hp lo hi ht hlo hhi
  | true => exact C25_relu_eq_proxy L s hw hr aggressive x p hp lo hi ht hall hlo hhi

-- the layer of `C61_channels_first_fails` without its bias, on the same input
example : Compat exFirst.outShape exFirst.qShape ∧ Traced exFirstState (exFirst.elem 0) (-4) 3 ∧
    -4 ≤ { exFirst with bias := none }.quant exFirstState [3 / 10] 0 ∧ { exFirst with bias := none }.quant exFirstState [3 / 10] 0 ≤ 3 ∧
    { exFirst with bias := none }.proxyOut exFirstState .WRAP [3 / 10] 0 =
      { exFirst with bias := none }.post ({ exFirst with bias := none }.quant exFirstState [3 / 10] 0) := by
  refine ⟨by decide, ⟨rfl, rfl, by norm_num, ⟨-4, by decide +kernel⟩, ⟨3, by decide +kernel⟩, by norm_num, by norm_num,
    by decide +kernel⟩, by decide +kernel, by decide +kernel, by decide +kernel⟩

-- a channels_first layer with two channels and one bitwidth
example : Compat [2, 1] [1, 1] ∧ prodL [1, 1] = 1 ∧
    ({ exFirst with qShape := [1, 1] } : LinLayer).quant exFirstState [3 / 10] 0 =
      ({ exFirst with qShape := [1, 1] } : LinLayer).proxyOut exFirstState .WRAP [3 / 10] 0 := by decide +kernel

end HGQ
