import Verif.Props.BitsFlow
import Verif.Model.Loss

/-!
C86: the loss reported for a model is a number. Every dense and convolution layer adds `beta * bops` to the loss of each call;
`bops` is computed from the recorded ranges of the layer before.
-/

namespace HGQ
open Spec

/-- a finite number that is not negative -/
def EF.Good (x : EF) : Prop := ∃ q : ℚ, x = .fin q ∧ 0 ≤ q

/-- both extrema of every value of the quantizer have been recorded -/
def SiteRecorded (q : QSite) (s : QState) : Prop :=
  ∀ p < prodL q.outShape, ∃ lo hi : ℚ, s.mn (q.elem p) = (lo : WithTop ℚ) ∧ s.mx (q.elem p) = (hi : WithBot ℚ)

theorem topBit_fin {a : ℚ} (ha : 0 ≤ a) :
    (EF.fin a).topBit = if a = 0 then .ninf else .fin (Int.log 2 a + 1) := by
  show (if a < 0 then EF.nan else _) = _
  rw [if_neg (not_lt.mpr ha)]

theorem topBit_relu (a : ℚ) (ha : 0 ≤ a) (f : ℤ) :
    (((EF.fin a).topBit).add (.fin f)).relu = .fin (reluBits ((floorLog2 a).map (· + 1)) f : ℤ) := by
  rw [topBit_fin ha]
  unfold floorLog2
  by_cases h : a = 0
  · subst h
    simp [EF.add, EF.relu, reluBits]
  · rw [if_neg h, if_neg h]
    show EF.fin (max _ _) = EF.fin (((max (Int.log 2 a + 1 + f) 0 : ℤ)) : ℚ)
    push_cast
    rfl

theorem actBwE_recorded (lo hi fbw : ℚ) (relu : Bool) :
    actBwE (lo : WithTop ℚ) (hi : WithBot ℚ) fbw relu = .fin (actBw lo hi fbw relu : ℤ) := by
  cases relu
  · have h := topBit_relu (max |lo| |hi|) (le_max_of_le_left (abs_nonneg _)) (tfRound fbw + if lo < 0 then 1 else 0)
    have e : actBwE (lo : WithTop ℚ) (hi : WithBot ℚ) fbw false =
        (((EF.fin (max |lo| |hi|)).topBit).add (.fin ((tfRound fbw + if lo < 0 then 1 else 0 : ℤ) : ℚ))).relu := by
      show ((((EF.fin (max |lo| |hi|)).topBit).add (.fin (tfRound fbw))).add
        (if decide (lo < 0) then EF.fin 1 else EF.fin 0)).relu = _
      congr 1
      rw [topBit_fin (le_max_of_le_left (abs_nonneg _))]
      by_cases h0 : max |lo| |hi| = 0
      · rw [if_pos h0]
        by_cases h1 : lo < 0 <;> simp [h1, EF.add]
      · rw [if_neg h0]
        by_cases h1 : lo < 0 <;> simp [h1, EF.add, add_assoc]
    rw [e, h]
    rfl
  · have h := topBit_relu (max hi 0) (le_max_right _ _) (tfRound fbw)
    exact h

theorem kernelBwE_eq (w fbw : ℚ) :
    kernelBwE w fbw = .fin ((reluBits ((floorLog2 |w|).map (· + 1)) (tfRound fbw) : ℤ) : ℚ) :=
  topBit_relu |w| (abs_nonneg _) _

theorem reluBits_nonneg (i : WithBot ℤ) (f : ℤ) : 0 ≤ reluBits i f := by
  cases i with
  | bot => exact le_rfl
  | coe n => exact le_max_right _ _

theorem actBw_nonneg' (lo hi fbw : ℚ) (relu : Bool) : 0 ≤ actBw lo hi fbw relu := by
  cases relu
  · exact reluBits_nonneg _ _
  · exact reluBits_nonneg _ _

theorem actBwE_site {q : QSite} {s : QState} (h : SiteRecorded q s) (posOnly : Bool) :
    q.actBwE posOnly s = (q.actBitsTrain posOnly s).map fun (b : ℤ) => EF.fin b := by
  unfold QSite.actBwE QSite.actBitsTrain
  rw [List.map_map]
  refine List.map_congr_left fun p hp => ?_
  obtain ⟨lo, hi, h1, h2⟩ := h p (List.mem_range.mp hp)
  rw [h1, h2, actBwE_recorded]
  simp only [Function.comp, h1, h2, WithTop.untopD_coe, WithBot.unbotD_coe]

theorem kernelBwE_list (L : LinLayer) (n : ℕ) : L.kernelBwE n = (L.kernelBitsTrain n).map fun (b : ℤ) => EF.fin b := by
  unfold LinLayer.kernelBwE LinLayer.kernelBitsTrain
  rw [List.map_map]
  refine List.map_congr_left fun j _ => ?_
  rw [kernelBwE_eq]
  rfl

theorem getD_fin (l : List ℤ) (i : ℕ) : (l.map fun (b : ℤ) => EF.fin b).getD i (.fin 0) = .fin ((l.getD i 0 : ℤ) : ℚ) := by
  rw [List.getD_eq_getElem?_getD, List.getD_eq_getElem?_getD, List.getElem?_map]
  cases l[i]? <;> simp

theorem sum_fin {α : Type} (l : List α) (f : α → ℤ) :
    EF.sum (l.map fun a => EF.fin ((f a : ℤ) : ℚ)) = .fin (((l.map f).sum : ℤ) : ℚ) := by
  induction l with
  | nil => simp [EF.sum]
  | cons a l ih =>
    unfold EF.sum at ih ⊢
    rw [List.map_cons, List.foldr_cons, ih, List.map_cons, List.sum_cons]
    show EF.fin _ = _
    push_cast
    rfl

theorem mulE_fin (L : LinLayer) (a k : List ℤ) :
    L.mulE (a.map fun (b : ℤ) => EF.fin b) (k.map fun (b : ℤ) => EF.fin b) = .fin (L.mulBits a k : ℤ) := by
  unfold LinLayer.mulE LinLayer.mulBits
  rw [← sum_fin]
  congr 1
  refine List.map_congr_left fun p _ => ?_
  rw [← sum_fin]
  congr 1
  refine List.map_congr_left fun ij _ => ?_
  rw [getD_fin, getD_fin]
  show EF.fin _ = _
  push_cast
  rfl

theorem bopsLoss_fin (nd : Node) (rule : BopsRule) (beta : ℚ) (inBw : List ℤ) :
    nd.bopsLoss rule beta (inBw.map fun (b : ℤ) => EF.fin b) = .fin (nd.trainBops rule inBw * beta) := by
  unfold Node.bopsLoss Node.trainBops
  split
  · rw [kernelBwE_list, mulE_fin]; rfl
  · rw [kernelBwE_list, mulE_fin]; rfl
  · simp

/-- **C86**, value: with recorded ranges the loss added by a layer is `beta` times the BOPs estimated during training. -/
theorem C86_value {q : QSite} {s : QState} (h : SiteRecorded q s) (posOnly : Bool) (nd : Node) (rule : BopsRule) (beta : ℚ) :
    nd.bopsLoss rule beta (q.actBwE posOnly s) = .fin (nd.trainBops rule (q.actBitsTrain posOnly s) * beta) := by
  rw [actBwE_site h, bopsLoss_fin]

/-! ### whole models -/

theorem EF.Good.add {x y : EF} (hx : x.Good) (hy : y.Good) : (x.add y).Good := by
  obtain ⟨a, rfl, ha⟩ := hx
  obtain ⟨b, rfl, hb⟩ := hy
  exact ⟨a + b, rfl, add_nonneg ha hb⟩

theorem EF.Good.mul {x y : EF} (hx : x.Good) (hy : y.Good) : (x.mul y).Good := by
  obtain ⟨a, rfl, ha⟩ := hx
  obtain ⟨b, rfl, hb⟩ := hy
  exact ⟨a * b, rfl, mul_nonneg ha hb⟩

theorem EF.Good.max2 {x y : EF} (hx : x.Good) (hy : y.Good) : (x.max2 y).Good := by
  obtain ⟨a, rfl, ha⟩ := hx
  obtain ⟨b, rfl, hb⟩ := hy
  exact ⟨max a b, rfl, le_max_of_le_left ha⟩

theorem EF.good_zero : (EF.fin 0).Good := ⟨0, rfl, le_rfl⟩

theorem good_sum {l : List EF} (h : ∀ x ∈ l, x.Good) : (EF.sum l).Good := by
  induction l with
  | nil => exact EF.good_zero
  | cons a l ih => exact (h a (by simp)).add (ih fun x hx => h x (by simp [hx]))

theorem good_getD {l : List EF} (h : ∀ x ∈ l, x.Good) (i : ℕ) : (l.getD i (.fin 0)).Good := by
  rw [List.getD_eq_getElem?_getD]
  cases hl : l[i]? with
  | none => exact EF.good_zero
  | some a => exact h a (List.mem_of_getElem? hl)

theorem good_kernel (L : LinLayer) (n : ℕ) : ∀ x ∈ L.kernelBwE n, x.Good := by
  intro x hx
  unfold LinLayer.kernelBwE at hx
  obtain ⟨j, -, rfl⟩ := List.mem_map.mp hx
  rw [kernelBwE_eq]
  exact ⟨_, rfl, by exact_mod_cast reluBits_nonneg _ _⟩

theorem good_mulE (L : LinLayer) {a k : List EF} (ha : ∀ x ∈ a, x.Good) (hk : ∀ x ∈ k, x.Good) : (L.mulE a k).Good := by
  refine good_sum fun x hx => ?_
  obtain ⟨p, -, rfl⟩ := List.mem_map.mp hx
  refine good_sum fun y hy => ?_
  obtain ⟨ij, -, rfl⟩ := List.mem_map.mp hy
  exact (good_getD ha _).mul (good_getD hk _)

theorem good_bopsLoss (nd : Node) (rule : BopsRule) {beta : ℚ} (hb : 0 ≤ beta) {inBw : List EF} (h : ∀ x ∈ inBw, x.Good) :
    (nd.bopsLoss rule beta inBw).Good := by
  unfold Node.bopsLoss
  split
  · exact (good_mulE _ h (good_kernel _ _)).mul ⟨beta, rfl, hb⟩
  · rename_i n pf L
    have := (good_mulE L h (good_kernel L n)).mul (y := .fin pf) ⟨pf, rfl, Nat.cast_nonneg _⟩
    obtain ⟨a, e, ha⟩ := this
    rw [e]
    exact ⟨a / prodL L.outShape.dropLast * beta, rfl, mul_nonneg (div_nonneg ha (Nat.cast_nonneg _)) hb⟩
  · exact EF.good_zero

theorem mem_concatFlat {α : Type} {outer : ℕ} {rests : List ℕ} {ins : List (List α)} {x : α} (h : x ∈ concatFlat outer rests ins) :
    ∃ l ∈ ins, x ∈ l := by
  unfold concatFlat at h
  simp only [List.mem_flatMap] at h
  obtain ⟨o, -, ri, hri, hx⟩ := h
  exact ⟨ri.2, (List.of_mem_zip hri).2, List.mem_of_mem_drop (List.mem_of_mem_take hx)⟩

theorem mapM_inv {α β : Type} {f : α → Except String β} : ∀ {l : List α} {r : List β}, l.mapM f = .ok r →
    ∀ b ∈ r, ∃ a ∈ l, f a = .ok b
  | [], r, h, b, hb => by
    rw [List.mapM_nil] at h
    cases h
    simp at hb
  | a :: l, r, h, b, hb => by
    rw [List.mapM_cons] at h
    cases hf : f a with
    | error e => rw [hf] at h; cases h
    | ok v =>
      cases hl : l.mapM f with
      | error e => rw [hf] at h; simp only [bind, Except.bind, hl] at h; cases h
      | ok vs =>
        rw [hf] at h
        simp only [bind, Except.bind, hl, pure, Except.pure] at h
        cases h
        rcases List.mem_cons.mp hb with rfl | hb
        · exact ⟨a, by simp, hf⟩
        · obtain ⟨a', h1, h2⟩ := mapM_inv hl b hb
          exact ⟨a', by simp [h1], h2⟩

/-- every tensor whose bits are known has finite bits -/
def EnvGood (env : List (Except String (List EF))) : Prop := ∀ (i : ℕ) (l : List EF), env[i]? = some (Except.ok l : Except String (List EF)) → ∀ x ∈ l, x.Good

theorem EnvGood.getD {env : List (Except String (List EF))} (h : EnvGood env) {i : ℕ} {l : List EF} {e : String}
    (hl : env.getD i (.error e) = .ok l) : ∀ x ∈ l, x.Good := by
  rw [List.getD_eq_getElem?_getD] at hl
  cases hi : env[i]? with
  | none => rw [hi] at hl; cases hl
  | some v =>
    rw [hi] at hl
    simp only [Option.getD_some] at hl
    subst hl
    exact h i l hi

theorem inputBw_good {calls : ℕ} {env : List (Except String (List EF))} {ins : List ℕ} (henv : EnvGood env) {l : List EF}
    (h : inputBw calls env ins = .ok (some l)) : ∀ x ∈ l, x.Good := by
  unfold inputBw at h
  split_ifs at h
  match ins, h with
  | [j], hi =>
    dsimp only at hi
    cases hg : env.getD j (.error "no such layer") with
    | error e => rw [hg] at hi; dsimp only at hi; split_ifs at hi; cases hi
    | ok l => rw [hg] at hi; cases hi; exact henv.getD hg
  | [], hi => cases hi
  | _ :: _ :: _, hi => cases hi

theorem actBwOf_good {nd : Node} {rule : BwRule} {calls : ℕ} {s : QState} {env : List (Except String (List EF))} {ins : List ℕ}
    (henv : EnvGood env) (hrec : ∀ q, nd.site = some q → SiteRecorded q s)
    (hsig : ∀ bits, rule = .signature bits → ∀ b ∈ bits, 0 ≤ b) {l : List EF} (h : actBwOf nd rule calls s env ins = .ok l) :
    ∀ x ∈ l, x.Good := by
  have hlast : ∀ {l : List EF}, lastBw calls env ins = .ok l → ∀ x ∈ l, x.Good := by
    clear h
    intro l h
    unfold lastBw at h
    cases hi : inputBw calls env ins with
    | error e => rw [hi] at h; cases h
    | ok o =>
      rw [hi] at h
      cases o with
      | none => cases h
      | some b => cases h; exact inputBw_good henv hi
  unfold actBwOf at h
  cases rule with
  | layer posOnly =>
    dsimp only at h
    cases hs : nd.site with
    | none => rw [hs] at h; cases h
    | some q =>
      rw [hs] at h
      cases h
      rw [actBwE_site (hrec q hs)]
      intro x hx
      obtain ⟨b, hb, rfl⟩ := List.mem_map.mp hx
      unfold QSite.actBitsTrain at hb
      obtain ⟨p, -, rfl⟩ := List.mem_map.mp hb
      exact ⟨_, rfl, by exact_mod_cast actBw_nonneg' _ _ _ _⟩
  | reshape => exact hlast h
  | concat outer rests =>
    dsimp only at h
    by_cases hc : 1 < calls
    · rw [if_pos hc] at h; cases h
    rw [if_neg hc] at h
    change (do let bs ← ins.mapM fun i => env.getD i (.error "no such layer"); return concatFlat outer rests bs) = _ at h
    cases hm : ins.mapM fun i => env.getD i (.error "no such layer") with
    | error e => rw [hm] at h; cases h
    | ok bs =>
      rw [hm] at h
      cases h
      intro x hx
      obtain ⟨b, hb, hxb⟩ := mem_concatFlat hx
      obtain ⟨i, -, hi⟩ := mapM_inv hm b hb
      exact henv.getD hi x hxb
  | pool n wins =>
    dsimp only at h
    cases hl : lastBw calls env ins with
    | error e => rw [hl] at h; cases h
    | ok t =>
      rw [hl] at h
      cases h
      intro x hx
      obtain ⟨p, -, rfl⟩ := List.mem_map.mp hx
      have ht := hlast hl
      clear hx hl hlast
      generalize (wins p) = w at *
      have h0 := good_getD ht (w.headD 0)
      generalize t.getD (w.headD 0) (.fin 0) = z at h0
      induction w with
      | nil => exact h0
      | cons a w ih => exact (good_getD ht a).max2 ih
  | signature bits =>
    cases h
    intro x hx
    obtain ⟨b, hb, rfl⟩ := List.mem_map.mp hx
    exact ⟨_, rfl, by exact_mod_cast hsig bits rfl b hb⟩

theorem EnvGood.append {env : List (Except String (List EF))} (h : EnvGood env) {r : Except String (List EF)}
    (hr : ∀ l, r = .ok l → ∀ x ∈ l, x.Good) : EnvGood (env ++ [r]) := by
  intro i l hi
  rcases lt_trichotomy i env.length with hlt | heq | hgt
  · rw [List.getElem?_append_left hlt] at hi
    exact h i l hi
  · rw [List.getElem?_append_right heq.ge, heq] at hi
    simp only [Nat.sub_self, List.getElem?_cons_zero, Option.some.injEq] at hi
    exact hr l hi
  · rw [List.getElem?_eq_none (by simp; omega)] at hi
    cases hi

theorem actBwEnvE_good : ∀ (net : Net) (rs : List BwRule) (cs : List ℕ) (ss : List LState) (env : List (Except String (List EF))),
    EnvGood env →
    (∀ (i : ℕ) nd ins s q, net[i]? = some (nd, ins) → ss[i]? = some s → nd.site = some q → SiteRecorded q s.q) →
    (∀ bits, BwRule.signature bits ∈ rs → ∀ b ∈ bits, 0 ≤ b) → EnvGood (actBwEnvE net rs cs ss env)
  | (nd, ins) :: net, r :: rs, c :: cs, s :: ss, env, h, hrec, hsig => by
    unfold actBwEnvE
    refine actBwEnvE_good net rs cs ss _ (h.append fun l hl => ?_) (fun i nd' ins' s' q h1 h2 h3 => ?_)
      fun bits hb => hsig bits (by simp [hb])
    · exact actBwOf_good h (fun q hq => hrec 0 nd ins s q rfl rfl hq) (fun bits hb => hsig bits (by simp [hb])) hl
    · exact hrec (i + 1) nd' ins' s' q (by simpa using h1) (by simpa using h2) h3
  | [], _, _, _, _, h, _, _ => by simpa [actBwEnvE] using h
  | _ :: _, [], _, _, _, h, _, _ => by simpa [actBwEnvE] using h
  | _ :: _, _ :: _, [], _, _, h, _, _ => by simpa [actBwEnvE] using h
  | _ :: _, _ :: _, _ :: _, [], _, h, _, _ => by simpa [actBwEnvE] using h

theorem layerLoss_good (net : Net) (m : BopsModel) (beta : ℚ) (ss : List LState)
    (hrec : ∀ (i : ℕ) nd ins s q, net[i]? = some (nd, ins) → ss[i]? = some s → nd.site = some q → SiteRecorded q s.q)
    (hsig : ∀ bits, BwRule.signature bits ∈ m.bw → ∀ b ∈ bits, 0 ≤ b) (hb : 0 ≤ beta) (i : ℕ) (r : EF)
    (h : net.layerLoss m beta ss i = .ok r) : r.Good := by
  have henv := actBwEnvE_good net m.bw m.calls ss
    (List.replicate m.nInputs (.error "'InputLayer' object has no attribute 'act_bw'")) (by
      intro i l hi
      rw [List.getElem?_replicate] at hi
      split_ifs at hi
      cases hi) hrec hsig
  unfold Net.layerLoss at h
  split at h
  · rename_i nd ins rl c _ _ _
    split at h
    · cases h; exact EF.good_zero
    · generalize actBwEnvE net m.bw m.calls ss
        (List.replicate m.nInputs (.error "'InputLayer' object has no attribute 'act_bw'")) = env at henv h
      dsimp only at h
      cases hi : inputBw c env ins with
      | error e => rw [hi] at h; cases h
      | ok o =>
        rw [hi] at h
        cases o with
        | none => cases h; exact EF.good_zero
        | some inBw =>
          cases h
          refine good_bopsLoss _ _ hb ?_
          exact inputBw_good henv hi
  · cases h

/-- **C86**, recorded ranges: if the ranges of all layers have been recorded, the loss of a call is the loss of the task plus a
finite term that is not negative. Missing: ranges that have not been recorded, see `C86_unrecorded`. -/
theorem C86_finite_partial (net : Net) (m : BopsModel) (betas : ℕ → ℚ) (ss : List LState) (task : ℚ) (r : EF)
    (hrec : ∀ (i : ℕ) nd ins s q, net[i]? = some (nd, ins) → ss[i]? = some s → nd.site = some q → SiteRecorded q s.q)
    (hsig : ∀ bits, BwRule.signature bits ∈ m.bw → ∀ b ∈ bits, 0 ≤ b) (hb : ∀ i, 0 ≤ betas i)
    (h : net.evalLoss m betas ss task = .ok r) : ∃ l : ℚ, r = .fin l ∧ task ≤ l := by
  unfold Net.evalLoss at h
  cases hm : (List.range net.length).mapM fun i => net.layerLoss m (betas i) ss i with
  | error e => rw [hm] at h; cases h
  | ok ls =>
    rw [hm] at h
    cases h
    obtain ⟨a, e, ha⟩ := good_sum (l := ls) fun x hx => by
      obtain ⟨i, -, hi⟩ := mapM_inv hm x hx
      exact layerLoss_good net m (betas i) ss hrec hsig (hb i) i x hi
    rw [e]
    exact ⟨task + a, rfl, by linarith⟩

/-! ### ranges that were not recorded -/

/-- not a number to work with: `inf` or `nan` -/
def EF.Bad (x : EF) : Prop := x = .pinf ∨ x = .nan

theorem bad_add_left {x y : EF} (hx : x.Bad) (hy : y.Good ∨ y.Bad) : (x.add y).Bad := by
  rcases hx with rfl | rfl
  · rcases hy with ⟨b, rfl, -⟩ | rfl | rfl
    · exact .inl rfl
    · exact .inl rfl
    · exact .inr rfl
  · exact .inr rfl

theorem bad_add_right {x y : EF} (hx : x.Good ∨ x.Bad) (hy : y.Bad) : (x.add y).Bad := by
  rcases hy with rfl | rfl
  · rcases hx with ⟨b, rfl, -⟩ | rfl | rfl
    · exact .inl rfl
    · exact .inl rfl
    · exact .inr rfl
  · rcases hx with ⟨b, rfl, -⟩ | rfl | rfl <;> exact .inr rfl

theorem gb_add {x y : EF} (hx : x.Good ∨ x.Bad) (hy : y.Good ∨ y.Bad) : (x.add y).Good ∨ (x.add y).Bad := by
  rcases hx with hx | hx
  · rcases hy with hy | hy
    · exact .inl (hx.add hy)
    · exact .inr (bad_add_right (.inl hx) hy)
  · exact .inr (bad_add_left hx hy)

theorem infOf_bad {a : ℚ} (h : 0 ≤ a) : (EF.infOf a).Bad := by
  unfold EF.infOf
  rcases h.eq_or_lt with rfl | h
  · exact .inr (by simp)
  · rw [if_neg h.ne', if_pos h]; exact .inl rfl

theorem bad_mul {x y : EF} (hx : x.Bad) (hy : y.Good) : (x.mul y).Bad := by
  obtain ⟨b, rfl, hb⟩ := hy
  rcases hx with rfl | rfl
  · exact infOf_bad hb
  · exact .inr rfl

theorem bad_mul_zero {x : EF} (hx : x.Bad) : x.mul (.fin 0) = .nan := by
  rcases hx with rfl | rfl <;> rfl

theorem gb_mul {x y : EF} (hx : x.Good ∨ x.Bad) (hy : y.Good) : (x.mul y).Good ∨ (x.mul y).Bad := by
  rcases hx with hx | hx
  · exact .inl (hx.mul hy)
  · exact .inr (bad_mul hx hy)

theorem gb_sum {l : List EF} (h : ∀ x ∈ l, x.Good ∨ x.Bad) : (EF.sum l).Good ∨ (EF.sum l).Bad := by
  induction l with
  | nil => exact .inl EF.good_zero
  | cons a l ih => exact gb_add (h a (by simp)) (ih fun x hx => h x (by simp [hx]))

theorem bad_sum {l : List EF} (h : ∀ x ∈ l, x.Good ∨ x.Bad) {x : EF} (hx : x ∈ l) (hbad : x.Bad) : (EF.sum l).Bad := by
  induction l with
  | nil => simp at hx
  | cons a l ih =>
    have hl : ∀ y ∈ l, y.Good ∨ y.Bad := fun y hy => h y (by simp [hy])
    rcases List.mem_cons.mp hx with rfl | hx
    · exact bad_add_left hbad (gb_sum hl)
    · exact bad_add_right (h a (by simp)) (ih hl hx)

theorem gb_actBwE (mn : WithTop ℚ) (mx : WithBot ℚ) (fbw : ℚ) (relu : Bool) :
    (actBwE mn mx fbw relu).Good ∨ (actBwE mn mx fbw relu).Bad := by
  have key : ∀ (x : EF) (c : ℚ), x.Good ∨ x = .pinf → ((x.topBit).add (.fin c)).relu.Good ∨ ((x.topBit).add (.fin c)).relu.Bad := by
    rintro x c (⟨a, rfl, ha⟩ | rfl)
    · rw [topBit_fin ha]
      split_ifs
      · exact .inl ⟨0, rfl, le_rfl⟩
      · exact .inl ⟨_, rfl, le_max_right _ _⟩
    · exact .inr (.inl rfl)
  have kadd : ∀ (x : EF) (a b : ℚ), (x.add (.fin a)).add (.fin b) = x.add (.fin (a + b)) := by
    intro x a b
    cases x <;> simp [EF.add, add_assoc]
  cases relu
  · have hx : (EF.max2 (EF.ofMin mn).abs (EF.ofMax mx).abs).Good ∨ EF.max2 (EF.ofMin mn).abs (EF.ofMax mx).abs = .pinf := by
      cases mn with
      | top => cases mx with
        | bot => exact .inr rfl
        | coe b => exact .inr rfl
      | coe a => cases mx with
        | bot => exact .inr rfl
        | coe b => exact .inl ⟨max |a| |b|, rfl, le_max_of_le_left (abs_nonneg _)⟩
    have := key _ (tfRound fbw + if (EF.ofMin mn).isNeg then 1 else 0) hx
    have e : actBwE mn mx fbw false = (((EF.max2 (EF.ofMin mn).abs (EF.ofMax mx).abs).topBit).add
        (.fin (tfRound fbw + if (EF.ofMin mn).isNeg then 1 else 0))).relu := by
      rw [← kadd]
      show (EF.add _ (if (EF.ofMin mn).isNeg then EF.fin 1 else EF.fin 0)).relu = _
      by_cases h : (EF.ofMin mn).isNeg <;> simp [h, getBitsE]
    rw [e]
    exact this
  · refine key _ (tfRound fbw) ?_
    cases mx with
    | bot => exact .inl ⟨0, rfl, le_rfl⟩
    | coe b => exact .inl ⟨max b 0, rfl, le_max_right _ _⟩

theorem mulE_bad (L : LinLayer) (n : ℕ) {q : QSite} {s : QState} {posOnly : Bool} {p i j : ℕ} (hp : p < prodL L.outShape)
    (hij : (i, j) ∈ L.taps p) (hi : i < prodL q.outShape) (hbad : (actBwE (s.mn (q.elem i)) (s.mx (q.elem i)) (s.fbw (q.elem i)) posOnly).Bad) :
    (L.mulE (q.actBwE posOnly s) (L.kernelBwE n)).Bad := by
  have hin : ∀ i, ((q.actBwE posOnly s).getD i (.fin 0)).Good ∨ ((q.actBwE posOnly s).getD i (.fin 0)).Bad := by
    intro i
    rw [List.getD_eq_getElem?_getD]
    cases h : (q.actBwE posOnly s)[i]? with
    | none => exact .inl EF.good_zero
    | some a =>
      have := List.mem_of_getElem? h
      unfold QSite.actBwE at this
      obtain ⟨p, -, rfl⟩ := List.mem_map.mp this
      exact gb_actBwE _ _ _ _
  have hterm : ∀ ij : ℕ × ℕ, ((((q.actBwE posOnly s).getD ij.1 (.fin 0)).mul ((L.kernelBwE n).getD ij.2 (.fin 0))).Good ∨
      (((q.actBwE posOnly s).getD ij.1 (.fin 0)).mul ((L.kernelBwE n).getD ij.2 (.fin 0))).Bad) :=
    fun ij => gb_mul (hin ij.1) (good_getD (good_kernel L n) ij.2)
  unfold LinLayer.mulE
  refine bad_sum (x := EF.sum ((L.taps p).map fun ij =>
    ((q.actBwE posOnly s).getD ij.1 (.fin 0)).mul ((L.kernelBwE n).getD ij.2 (.fin 0)))) ?_
    (List.mem_map.mpr ⟨p, List.mem_range.mpr hp, rfl⟩) ?_
  · intro x hx
    obtain ⟨p, -, rfl⟩ := List.mem_map.mp hx
    refine gb_sum fun y hy => ?_
    obtain ⟨ij, -, rfl⟩ := List.mem_map.mp hy
    exact hterm ij
  · refine bad_sum (x := ((q.actBwE posOnly s).getD i (.fin 0)).mul ((L.kernelBwE n).getD j (.fin 0))) ?_
      (List.mem_map.mpr ⟨(i, j), hij, rfl⟩) ?_
    · intro y hy
      obtain ⟨ij, -, rfl⟩ := List.mem_map.mp hy
      exact hterm ij
    · refine bad_mul ?_ (good_getD (good_kernel L n) j)
      have : (q.actBwE posOnly s).getD i (.fin 0) = actBwE (s.mn (q.elem i)) (s.mx (q.elem i)) (s.fbw (q.elem i)) posOnly := by
        unfold QSite.actBwE
        rw [List.getD_eq_getElem?_getD, List.getElem?_map, List.getElem?_range hi]
        rfl
      rw [this]
      exact hbad

/-- **C86**, ranges not recorded: if one of the values entering a dense or convolution layer comes from a quantizer without relu
whose range was never recorded (or was reset), the loss added by the layer is `inf` or `nan`; with `beta = 0`, the default, it
is `nan`. -/
theorem C86_unrecorded (L : LinLayer) (n pf : ℕ) (rule : BopsRule) (hrule : rule = .dense n ∨ rule = .conv n pf)
    (beta : ℚ) (hb : 0 ≤ beta) (q : QSite) (s : QState) (p i j : ℕ) (hp : p < prodL L.outShape) (hij : (i, j) ∈ L.taps p)
    (hi : i < prodL q.outShape) (hmn : s.mn (q.elem i) = ⊤) (hmx : s.mx (q.elem i) = ⊥) :
    ((Node.linear L).bopsLoss rule beta (q.actBwE false s) = .pinf ∨
      (Node.linear L).bopsLoss rule beta (q.actBwE false s) = .nan) ∧
    (beta = 0 → (Node.linear L).bopsLoss rule beta (q.actBwE false s) = .nan) := by
  have h := mulE_bad L n (q := q) (s := s) (posOnly := false) hp hij hi (by rw [hmn, hmx]; exact .inl rfl)
  have hconv : (((L.mulE (q.actBwE false s) (L.kernelBwE n)).mul (.fin pf)).divPos (prodL L.outShape.dropLast)).Bad := by
    have := bad_mul h (y := .fin pf) ⟨pf, rfl, Nat.cast_nonneg _⟩
    rcases this with e | e <;> rw [e]
    · exact .inl rfl
    · exact .inr rfl
  rcases hrule with rfl | rfl
  · refine ⟨bad_mul h ⟨beta, rfl, hb⟩, ?_⟩
    rintro rfl
    exact bad_mul_zero h
  · refine ⟨bad_mul hconv ⟨beta, rfl, hb⟩, ?_⟩
    rintro rfl
    exact bad_mul_zero hconv

/-- **C86**, relu: the bits of an unrecorded layer with relu are reported as 0, so it does not disturb the loss (nor is it
counted). -/
theorem C86_unrecorded_relu (q : QSite) (s : QState) (hmx : ∀ e, s.mx e = ⊥) : ∀ x ∈ q.actBwE true s, x = .fin 0 := by
  intro x hx
  unfold QSite.actBwE at hx
  obtain ⟨p, -, rfl⟩ := List.mem_map.mp hx
  rw [hmx]
  rfl

/-- the ranges of the example are recorded -/
theorem exBops_recorded : ∀ (i : ℕ) nd ins s q, exBopsNet[i]? = some (nd, ins) → exBopsStates[i]? = some s → nd.site = some q →
    SiteRecorded q s.q := by
  intro i nd ins s q h1 h2 h3 p _
  match i, h1, h2 with
  | 0, h1, h2 => cases h2; exact ⟨_, _, rfl, rfl⟩
  | 1, h1, h2 => cases h2; exact ⟨_, _, rfl, rfl⟩
  | 2, h1, _ => cases h1; cases h3
  | 3, h1, _ => cases h1; cases h3
  | i + 4, h1, _ => cases h1

-- a recorded network: 60 BOPs with beta 1/100
example : exBopsNet.evalLoss exBopsModel (fun _ => 1 / 100) exBopsStates (1 / 2) = .ok (.fin (11 / 10)) := by decide +kernel

/-- **C86** fails: after `ResetMinMax` (called at the end of each epoch) the loss of the same network is `nan` for the default
`beta = 0` and `inf` for a positive one. -/
theorem C86_after_reset :
    exBopsNet.evalLoss exBopsModel (fun _ => 0) exBopsStates (1 / 2) = .ok (.fin (1 / 2)) ∧
    exBopsNet.evalLoss exBopsModel (fun _ => 0)
      (exBopsNet.resetMinmax [.layer 0, .layer 1, .layer 2, .layer 3] exBopsStates) (1 / 2) = .ok .nan ∧
    exBopsNet.evalLoss exBopsModel (fun _ => 1 / 100)
      (exBopsNet.resetMinmax [.layer 0, .layer 1, .layer 2, .layer 3] exBopsStates) (1 / 2) = .ok .pinf := by
  decide +kernel

end HGQ
