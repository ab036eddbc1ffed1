import Verif.Props.Bops

/-!
C75: the bits reported for a tensor describe its values. C76: the training-time BOPs are an upper bound of the exact ones.
-/

namespace HGQ
open Spec

/-- number of bits of a type, sign included -/
def KIF.width (b : KIF) : ℤ := b.k + b.i + b.f

/-- the tensor `x` is described by the types `F`, one for each position -/
def Typed (F : List KIF) (x : List ℚ) : Prop := List.Forall₂ (fun b v => IsKif b.k b.i b.f v) F x

/-- `bits` are the widths of types that describe all the tensors of `S` -/
def Describes (bits : List ℤ) (S : Set (List ℚ)) : Prop :=
  ∃ F : List KIF, (∀ b ∈ F, b.k = 0 ∨ b.k = 1) ∧ bits = F.map KIF.width ∧ ∀ x ∈ S, Typed F x

theorem evalQ_nonneg {st : ℤ} {fbw x : ℚ} (h : 0 ≤ x) : 0 ≤ evalQ st fbw x := by
  have h1 := evalQ_mono st fbw h
  have h0 := evalQ_of_grid st fbw 0
  simp only [Int.cast_zero, zero_mul] at h0
  rwa [h0] at h1

/-! ### single layers -/

/-- **C75**, HGQ layers: the bits reported after tracing describe the outputs of the layer on all inputs that stay in the
recorded ranges. -/
theorem C75_layer (nd : Node) (q : QSite) (hq : nd.site = some q) (s : QState) (posOnly : Bool) (ht : SiteTraced q s)
    (hL : ∀ L, nd = .linear L → posOnly = L.reluAct)
    (hn : (∀ L, nd ≠ .linear L) → posOnly = true → ∀ ins p, 0 ≤ nd.preAt s.fbw ins p) :
    ∃ bits, q.actBits posOnly s = .ok bits ∧ Describes bits {y | ∃ ins, nd.InRange s ins ∧ y = nd.out s.fbw ins} := by
  refine ⟨_, actBits_eq ht posOnly, ((List.range (prodL q.outShape)).map fun p =>
    bitsExact ((s.mn (q.elem p)).untopD 0) ((s.mx (q.elem p)).unbotD 0) (s.fbw (q.elem p)) posOnly), ?_, ?_, ?_⟩
  · intro b hb
    obtain ⟨p, hp, rfl⟩ := List.mem_map.mp hb
    obtain ⟨lo, hi, h⟩ := ht.range _ (elemOf_lt ht.shape (List.mem_range.mp hp))
    exact (bitsExact_wf _ _ _ posOnly (fb_ge h.fb)).1
  · rw [List.map_map]
    apply List.map_congr_left
    intro p _
    unfold actBwExact KIF.width
    dsimp only [Function.comp]
    ring
  · rintro y ⟨ins, hin, rfl⟩
    unfold Typed Node.out
    rw [hq]
    simp only [List.forall₂_map_left_iff, List.forall₂_map_right_iff, List.forall₂_same]
    intro p hp
    have hp := List.mem_range.mp hp
    obtain ⟨lo, hi, h⟩ := ht.range _ (elemOf_lt ht.shape hp)
    obtain ⟨h1, h2⟩ := hin q hq p hp
    change (s.mn (q.elem p)) ≤ _ at h1
    change _ ≤ (s.mx (q.elem p)) at h2
    have hmn : s.mn (q.elem p) = (lo : WithTop ℚ) := h.mn
    have hmx : s.mx (q.elem p) = (hi : WithBot ℚ) := h.mx
    rw [hmn] at h1 ⊢
    rw [hmx] at h2 ⊢
    have h1 := WithTop.coe_le_coe.mp h1
    have h2 := WithBot.coe_le_coe.mp h2
    rw [WithTop.untopD_coe, WithBot.unbotD_coe]
    have hg : ∃ n : ℤ, nd.quantAt q s.fbw ins p = n * p2 (-(tfRound (s.fbw (q.elem p)))) := evalQ_grid _ _ _
    have hpost : nd.post (nd.quantAt q s.fbw ins p) =
        if posOnly then max (nd.quantAt q s.fbw ins p) 0 else nd.quantAt q s.fbw ins p := by
      cases nd with
      | linear L =>
        rw [hL L rfl]
        show L.post _ = _
        unfold LinLayer.post
        split_ifs <;> rfl
      | _ =>
        all_goals
          show _ = _
          unfold Node.post
          cases posOnly with
          | false => simp
          | true =>
            have := hn (by intro L h; cases h) rfl ins p
            simp only [if_true, id]
            rw [max_eq_left]
            unfold Node.quantAt
            exact evalQ_nonneg this
    rw [hpost]
    cases posOnly with
    | true =>
      simp only [if_true]
      exact bitsExact_pos_covers hg h2 h.ub
    | false =>
      simp only [Bool.false_eq_true, if_false]
      exact bitsExact_neg_covers hg h1 h2 h.lb h.ub

/-- **C75**, `PReshape`, `PFlatten` (channels last; channels first: `C75_flatten_first_iff`), `PDropout` (inference): values and reported bits are
passed on position by position. -/
theorem C75_reshape (calls : ℕ) (s : QState) (env : List (Except String (List ℤ))) (i : ℕ) (bits bits' : List ℤ)
    (S : Set (List ℚ)) (henv : env[i]? = some (.ok bits)) (hd : Describes bits S)
    (h : actBitsOf (.passive fun ins => ins.headD []) .reshape calls s env [i] = .ok bits') :
    Describes bits' {y | ∃ x ∈ S, (Node.passive fun ins => ins.headD []).out s.fbw [x] = y} := by
  unfold actBitsOf lastBits at h
  dsimp only at h
  split_ifs at h
  rw [List.getD_eq_getElem?_getD, henv] at h
  cases h
  obtain ⟨F, h1, h2, h3⟩ := hd
  refine ⟨F, h1, h2, ?_⟩
  rintro y ⟨x, hx, rfl⟩
  exact h3 x hx

theorem concatFlat_map {α β : Type} (g : α → β) (outer : ℕ) (rests : List ℕ) (ins : List (List α)) :
    concatFlat outer rests (ins.map fun l => l.map g) = (concatFlat outer rests ins).map g := by
  unfold concatFlat
  rw [List.map_flatMap]
  congr 1
  funext o
  rw [List.zip_map_right, List.flatMap_map, List.map_flatMap]
  congr 1
  funext ri
  simp [List.map_drop, List.map_take]

theorem forall₂_flatMap {α α' β β' : Type} {R : α → α' → Prop} {Q : β → β' → Prop} {f : α → List β} {g : α' → List β'}
    (hfg : ∀ a a', R a a' → List.Forall₂ Q (f a) (g a')) {l : List α} {l' : List α'} (h : List.Forall₂ R l l') :
    List.Forall₂ Q (l.flatMap f) (l'.flatMap g) := by
  induction h with
  | nil => exact .nil
  | cons h1 _ ih => simp only [List.flatMap_cons]; exact List.rel_append (hfg _ _ h1) ih

theorem concatFlat_rel {α β : Type} {R : α → β → Prop} (outer : ℕ) : ∀ (rests : List ℕ) {ins : List (List α)} {ins' : List (List β)},
    List.Forall₂ (List.Forall₂ R) ins ins' → List.Forall₂ R (concatFlat outer rests ins) (concatFlat outer rests ins') := by
  intro rests ins ins' h
  unfold concatFlat
  refine forall₂_flatMap (R := fun a b => a = b) ?_ (List.forall₂_same.mpr fun _ _ => rfl)
  rintro o _ rfl
  refine forall₂_flatMap (R := fun (a : ℕ × List α) (b : ℕ × List β) => a.1 = b.1 ∧ List.Forall₂ R a.2 b.2) ?_ ?_
  · rintro ⟨r, x⟩ ⟨r', y⟩ ⟨rfl, hxy⟩
    exact List.forall₂_take _ (List.forall₂_drop _ hxy)
  · induction h generalizing rests with
    | nil => cases rests <;> exact .nil
    | cons h1 _ ih =>
      cases rests with
      | nil => exact .nil
      | cons r rests => exact .cons ⟨rfl, h1⟩ (ih rests)

/-- **C75**, `PConcatenate`: if the bits of every input describe it, the concatenated bits describe the concatenation, for every
axis and any number of inputs. -/
theorem C75_concat (outer : ℕ) (rests : List ℕ) (bs : List (List ℤ)) (Ss : List (Set (List ℚ)))
    (h : List.Forall₂ Describes bs Ss) :
    Describes (concatFlat outer rests bs) {y | ∃ xs, List.Forall₂ (fun x S => x ∈ S) xs Ss ∧ y = concatFlat outer rests xs} := by
  have hF : ∃ Fs : List (List KIF), (∀ F ∈ Fs, ∀ b ∈ F, b.k = 0 ∨ b.k = 1) ∧ bs = Fs.map (fun F => F.map KIF.width) ∧
      List.Forall₂ (fun F S => ∀ x ∈ S, Typed F x) Fs Ss := by
    induction h with
    | nil => exact ⟨[], by simp, rfl, .nil⟩
    | cons h1 _ ih =>
      obtain ⟨F, a1, a2, a3⟩ := h1
      obtain ⟨Fs, b1, b2, b3⟩ := ih
      exact ⟨F :: Fs, by simpa using ⟨a1, b1⟩, by simp [a2, b2], .cons a3 b3⟩
  obtain ⟨Fs, h1, rfl, h3⟩ := hF
  refine ⟨concatFlat outer rests Fs, ?_, concatFlat_map _ _ _ _, ?_⟩
  · intro b hb
    unfold concatFlat at hb
    obtain ⟨o, -, hb⟩ := List.mem_flatMap.mp hb
    obtain ⟨⟨r, F⟩, hz, hb⟩ := List.mem_flatMap.mp hb
    exact h1 F (List.of_mem_zip hz).2 b (List.mem_of_mem_drop (List.mem_of_mem_take hb))
  · rintro y ⟨xs, hxs, rfl⟩
    apply concatFlat_rel
    clear h1 h
    induction h3 generalizing xs with
    | nil => cases hxs; exact .nil
    | cons g1 _ ih =>
      cases hxs with
      | cons k1 k2 => exact .cons (g1 _ k1) (ih _ k2)

-- concatenation of shapes (2, 1) and (2, 2) along the last axis
example : concatFlat 2 [1, 2] [[1, 2], [3, 4, 5, 6]] = [1, 3, 4, 2, 5, 6] := by decide

/-! ### pooling and permutation -/

theorem foldr_max_mem {α : Type} [LinearOrder α] (a : α) : ∀ l : List α, l.foldr max a ∈ a :: l
  | [] => by simp
  | b :: l => by
    simp only [List.foldr_cons]
    rcases max_choice b (l.foldr max a) with h | h
    · rw [h]; simp
    · rw [h]
      have := foldr_max_mem a l
      simp only [List.mem_cons] at this ⊢
      tauto

/-- **C75**, max pooling, the case in which the code is right: if all positions of each window have the same type, the pooled
bits describe the pooled values. Missing: windows with different types (`C75_max_pool_mixed`). -/
theorem C75_max_pool_partial (n : ℕ) (wins : ℕ → List ℕ) (F : List KIF) (hk : ∀ b ∈ F, b.k = 0 ∨ b.k = 1) (S : Set (List ℚ))
    (hS : ∀ x ∈ S, Typed F x) (hw : ∀ p < n, ∃ b, wins p ≠ [] ∧ ∀ i ∈ wins p, F[i]? = some b) :
    Describes (maxPool n wins (F.map KIF.width)) {y | ∃ x ∈ S, y = maxPool n wins x} := by
  have hsel : ∀ {α : Type} [LinearOrder α] [Zero α] (x : List α) (p : ℕ), wins p ≠ [] →
      ∃ i ∈ wins p, ((wins p).map fun i => x.getD i 0).foldr max (x.getD ((wins p).headD 0) 0) = x.getD i 0 := by
    intro α _ _ x p hne
    have hm := foldr_max_mem (x.getD ((wins p).headD 0) 0) ((wins p).map fun i => x.getD i 0)
    rcases List.mem_cons.mp hm with h | h
    · refine ⟨(wins p).headD 0, ?_, h⟩
      cases hwp : wins p with
      | nil => exact absurd hwp hne
      | cons a l => simp
    · obtain ⟨i, hi, he⟩ := List.mem_map.mp h
      exact ⟨i, hi, he.symm⟩
  refine ⟨(List.range n).map fun p => F.getD ((wins p).headD 0) ⟨0, 0, 0⟩, ?_, ?_, ?_⟩
  · intro b hb
    obtain ⟨p, hp, rfl⟩ := List.mem_map.mp hb
    obtain ⟨b, hne, hb⟩ := hw p (List.mem_range.mp hp)
    have hh : (wins p).headD 0 ∈ wins p := by
      cases hwp : wins p with
      | nil => exact absurd hwp hne
      | cons a l => simp
    rw [List.getD_eq_getElem?_getD, hb _ hh]
    exact hk b (List.mem_of_getElem? (hb _ hh))
  · unfold maxPool
    rw [List.map_map]
    apply List.map_congr_left
    intro p hp
    obtain ⟨b, hne, hb⟩ := hw p (List.mem_range.mp hp)
    obtain ⟨i, hi, he⟩ := hsel (F.map KIF.width) p hne
    have hh : (wins p).headD 0 ∈ wins p := by
      cases hwp : wins p with
      | nil => exact absurd hwp hne
      | cons a l => simp
    rw [he]
    simp only [Function.comp]
    rw [List.getD_eq_getElem?_getD, List.getElem?_map, hb i hi, List.getD_eq_getElem?_getD, hb _ hh]
    rfl
  · rintro y ⟨x, hx, rfl⟩
    unfold Typed maxPool
    simp only [List.forall₂_map_left_iff, List.forall₂_map_right_iff, List.forall₂_same]
    intro p hp
    obtain ⟨b, hne, hb⟩ := hw p (List.mem_range.mp hp)
    obtain ⟨i, hi, he⟩ := hsel x p hne
    have hh : (wins p).headD 0 ∈ wins p := by
      cases hwp : wins p with
      | nil => exact absurd hwp hne
      | cons a l => simp
    rw [he, List.getD_eq_getElem?_getD, hb _ hh, List.getD_eq_getElem?_getD, Option.getD_some]
    have hlen := (hS x hx).length_eq
    have hi' : i < x.length := by
      rw [← hlen]
      exact (List.getElem?_eq_some_iff.mp (hb i hi)).1
    rw [List.getElem?_eq_getElem hi', Option.getD_some]
    exact forall₂_get (hS x hx) i (hb i hi) (List.getElem?_eq_getElem hi')

/-- integers of a type of width `w` -/
theorem kif_int_bounds {b : KIF} {v : ℚ} (hk : b.k = 0 ∨ b.k = 1) (hv : IsKif b.k b.i b.f v) :
    ∃ n : ℤ, v = n * (2 : ℚ) ^ (-b.f) ∧ -(b.k * (2 : ℚ) ^ (b.i + b.f)) ≤ n ∧ (n : ℚ) < (2 : ℚ) ^ (b.i + b.f) := by
  obtain ⟨⟨n, hn⟩, h1, h2⟩ := hv
  have hp : (0 : ℚ) < (2 : ℚ) ^ (-b.f) := zpow2_pos _
  have hi : (2 : ℚ) ^ b.i = (2 : ℚ) ^ (b.i + b.f) * (2 : ℚ) ^ (-b.f) := by
    rw [← zpow_add₀ (by norm_num)]; congr 1; ring
  rw [hn, hi] at h1 h2
  refine ⟨n, hn, ?_, lt_of_mul_lt_mul_right h2 hp.le⟩
  have : -(b.k * (2 : ℚ) ^ (b.i + b.f)) * (2 : ℚ) ^ (-b.f) ≤ n * (2 : ℚ) ^ (-b.f) := by linarith
  exact le_of_mul_le_mul_right this hp

/-- **C75** is false for max pooling over different types: one position with 3 integer bits, one with 3 fractional bits; the
3 bits reported for the maximum describe no type containing both 7 and 1/8. -/
theorem C75_max_pool_mixed :
    Describes [3, 3] {x | Typed [⟨0, 3, 0⟩, ⟨0, 0, 3⟩] x} ∧ maxPool 1 (fun _ => [0, 1]) ([3, 3] : List ℤ) = [3] ∧
    ¬ Describes [3] {y | ∃ x, Typed [⟨0, 3, 0⟩, ⟨0, 0, 3⟩] x ∧ y = maxPool 1 (fun _ => [0, 1]) x} := by
  refine ⟨⟨[⟨0, 3, 0⟩, ⟨0, 0, 3⟩], by simp, rfl, fun x hx => hx⟩, by decide, ?_⟩
  rintro ⟨F, hk, hb, hF⟩
  have t1 : Typed [⟨0, 3, 0⟩, ⟨0, 0, 3⟩] [7, 0] :=
    .cons ⟨⟨7, by norm_num⟩, by norm_num, by norm_num⟩ (.cons ⟨⟨0, by norm_num⟩, by norm_num, by norm_num⟩ .nil)
  have t2 : Typed [⟨0, 3, 0⟩, ⟨0, 0, 3⟩] [0, 1 / 8] :=
    .cons ⟨⟨0, by norm_num⟩, by norm_num, by norm_num⟩ (.cons ⟨⟨1, by norm_num⟩, by norm_num, by norm_num⟩ .nil)
  have m1 : maxPool 1 (fun _ => [0, 1]) ([7, 0] : List ℚ) = [7] := by decide +kernel
  have m2 : maxPool 1 (fun _ => [0, 1]) ([0, 1 / 8] : List ℚ) = [1 / 8] := by decide +kernel
  have h1 := hF [7] ⟨_, t1, m1.symm⟩
  have h2 := hF [1 / 8] ⟨_, t2, m2.symm⟩
  cases F with
  | nil => cases hb
  | cons b F =>
    cases h1 with
    | cons a1 _ =>
      cases h2 with
      | cons a2 _ =>
        have hk := hk b (by simp)
        obtain ⟨n, hn, n1, n2⟩ := kif_int_bounds hk a1
        obtain ⟨m, hm, m1, m2⟩ := kif_int_bounds hk a2
        have hw : b.k + b.i + b.f = 3 := by
          simp only [List.map_cons, List.cons.injEq] at hb
          exact hb.1.symm
        have hp : (0 : ℚ) < (2 : ℚ) ^ (-b.f) := zpow2_pos _
        have hnm : (n : ℚ) = 56 * m := by
          have : (n : ℚ) * (2 : ℚ) ^ (-b.f) = 56 * m * (2 : ℚ) ^ (-b.f) := by rw [← hn, mul_assoc, ← hm]; norm_num
          exact mul_right_cancel₀ hp.ne' this
        have hmpos : (0 : ℚ) < m := by
          by_contra hc; push Not at hc
          have := mul_nonpos_of_nonpos_of_nonneg hc hp.le
          rw [← hm] at this; norm_num at this
        have hm1 : 1 ≤ m := by
          have : 0 < m := by exact_mod_cast hmpos
          omega
        have hn2 : (n : ℚ) < 8 := by
          refine lt_of_lt_of_le n2 ?_
          calc (2 : ℚ) ^ (b.i + b.f) ≤ (2 : ℚ) ^ (3 : ℤ) := zpow_le_zpow_right₀ (by norm_num) (by omega)
            _ = 8 := by norm_num
        have : n = 56 * m := by exact_mod_cast hnm
        have : n < 8 := by exact_mod_cast hn2
        omega

/-- **C75** is false for average pooling: two 1-bit inputs, the 1 bit reported for their mean cannot describe 0, 1/2 and 1. -/
theorem C75_average_pool :
    Describes [1, 1] {x | Typed [⟨0, 1, 0⟩, ⟨0, 1, 0⟩] x} ∧ maxPool 1 (fun _ => [0, 1]) ([1, 1] : List ℤ) = [1] ∧
    ¬ Describes [1] {y | ∃ x, Typed [⟨0, 1, 0⟩, ⟨0, 1, 0⟩] x ∧ y = [(x.getD 0 0 + x.getD 1 0) / 2]} := by
  refine ⟨⟨[⟨0, 1, 0⟩, ⟨0, 1, 0⟩], by simp, rfl, fun x hx => hx⟩, by decide, ?_⟩
  rintro ⟨F, hk, hb, hF⟩
  have c0 : IsKif 0 1 0 0 := ⟨⟨0, by norm_num⟩, by norm_num, by norm_num⟩
  have c1 : IsKif 0 1 0 1 := ⟨⟨1, by norm_num⟩, by norm_num, by norm_num⟩
  have h1 := hF [1] ⟨[1, 1], .cons c1 (.cons c1 .nil), by norm_num⟩
  have h2 := hF [1 / 2] ⟨[0, 1], .cons c0 (.cons c1 .nil), by norm_num⟩
  cases F with
  | nil => cases hb
  | cons b F =>
    cases h1 with
    | cons a1 _ =>
      cases h2 with
      | cons a2 _ =>
        have hk := hk b (by simp)
        obtain ⟨n, hn, n1, n2⟩ := kif_int_bounds hk a1
        obtain ⟨m, hm, m1, m2⟩ := kif_int_bounds hk a2
        have hw : b.k + b.i + b.f = 1 := by
          simp only [List.map_cons, List.cons.injEq] at hb
          exact hb.1.symm
        have hp : (0 : ℚ) < (2 : ℚ) ^ (-b.f) := zpow2_pos _
        have hnm : (n : ℚ) = 2 * m := by
          have : (n : ℚ) * (2 : ℚ) ^ (-b.f) = 2 * m * (2 : ℚ) ^ (-b.f) := by rw [← hn, mul_assoc, ← hm]; norm_num
          exact mul_right_cancel₀ hp.ne' this
        have hmpos : (0 : ℚ) < m := by
          by_contra hc; push Not at hc
          have := mul_nonpos_of_nonpos_of_nonneg hc hp.le
          rw [← hm] at this; norm_num at this
        have hm1 : 0 < m := by exact_mod_cast hmpos
        have hn2 : (n : ℚ) < 2 := by
          refine lt_of_lt_of_le n2 ?_
          calc (2 : ℚ) ^ (b.i + b.f) ≤ (2 : ℚ) ^ (1 : ℤ) := zpow_le_zpow_right₀ (by norm_num) (by omega)
            _ = 2 := by norm_num
        have : n = 2 * m := by exact_mod_cast hnm
        have : n < 2 := by exact_mod_cast hn2
        omega

/-- `tf.keras.layers.Permute((2, 1))` on a matrix with `r` rows and `c` columns -/
def permute21 (r c : ℕ) (x : List ℚ) : List ℚ := (List.range (r * c)).map fun p => x.getD (p % r * c + p / r) 0

/-- **C75** is false for `PPermute`: it reports the bits of its input unpermuted. A 2 x 2 input whose only non-zero entry is the
upper right one: the lower left entry of the output is reported to have no bits. -/
theorem C75_permute (s : QState) :
    Describes [0, 3, 0, 0] {x | Typed [⟨0, 0, 0⟩, ⟨0, 3, 0⟩, ⟨0, 0, 0⟩, ⟨0, 0, 0⟩] x} ∧
    actBitsOf (.passive fun ins => permute21 2 2 (ins.headD [])) .reshape 1 s [.ok [0, 3, 0, 0]] [0] = .ok [0, 3, 0, 0] ∧
    ¬ Describes [0, 3, 0, 0]
      {y | ∃ x, Typed [⟨0, 0, 0⟩, ⟨0, 3, 0⟩, ⟨0, 0, 0⟩, ⟨0, 0, 0⟩] x ∧ y = permute21 2 2 x} := by
  refine ⟨⟨_, by simp, rfl, fun x hx => hx⟩, rfl, ?_⟩
  rintro ⟨F, hk, hb, hF⟩
  have c0 : ∀ i : ℤ, IsKif 0 i 0 0 := fun i => ⟨⟨0, by norm_num⟩, by norm_num, zpow2_pos _⟩
  have c1 : IsKif 0 3 0 5 := ⟨⟨5, by norm_num⟩, by norm_num, by norm_num⟩
  have e : permute21 2 2 [0, 5, 0, 0] = [0, 0, 5, 0] := by decide +kernel
  have h1 := hF [0, 0, 5, 0] ⟨[0, 5, 0, 0], .cons (c0 0) (.cons c1 (.cons (c0 0) (.cons (c0 0) .nil))), e.symm⟩
  have hlen := h1.length_eq
  match F, hlen with
  | [b0, b1, b2, b3], _ =>
    cases h1 with
    | cons _ h => cases h with
      | cons _ h => cases h with
        | cons a _ =>
          simp only [List.map_cons, List.cons.injEq] at hb
          have := kif_no_bits (hk b2 (by simp)) hb.2.2.1.symm a
          norm_num at this

/-! ### models -/

theorem Describes.mono {bits : List ℤ} {S S' : Set (List ℚ)} (h : Describes bits S) (hs : S' ⊆ S) : Describes bits S' := by
  obtain ⟨F, h1, h2, h3⟩ := h
  exact ⟨F, h1, h2, fun x hx => h3 x (hs hx)⟩

/-- the layer is what its rule for reporting bits says (`_relu_act` is set exactly for ReLU activations); HGQ layers have recorded
their ranges -/
def RuleOk (nd : Node) (rule : BwRule) (s : QState) : Prop :=
  match rule with
  | .layer posOnly => ∃ q, nd.site = some q ∧ SiteTraced q s ∧ (∀ L, nd = .linear L → posOnly = L.reluAct) ∧
      ((∀ L, nd ≠ .linear L) → posOnly = true → ∀ ins p, 0 ≤ nd.preAt s.fbw ins p)
  | .reshape => nd = .passive fun ins => ins.headD []
  | .concat outer rests => nd = .passive (concatFlat outer rests)
  | _ => False

/-- `RuleOk` for all layers -/
def Net.RulesOk : Net → List BwRule → List LState → Prop
  | [], [], [] => True
  | (nd, _) :: net, r :: rs, s :: ss => RuleOk nd r s.q ∧ Net.RulesOk net rs ss
  | _, _, _ => False

theorem getD_append_new {α : Type} (l : List α) (a d : α) (t : ℕ) :
    (l ++ [a]).getD t d = if t < l.length then l.getD t d else if t = l.length then a else d := by
  simp only [List.getD_eq_getElem?_getD]
  split_ifs with h1 h2
  · rw [List.getElem?_append_left h1]
  · subst h2; simp
  · rw [List.getElem?_eq_none (by simp; omega)]; rfl

theorem mapM_forall₂ {α β : Type} {f : α → Except String β} : ∀ {l : List α} {r : List β}, l.mapM f = .ok r →
    List.Forall₂ (fun a b => f a = .ok b) l r
  | [], r, h => by cases h; exact .nil
  | a :: l, r, h => by
    rw [List.mapM_cons] at h
    cases h1 : f a with
    | error e => rw [h1] at h; cases h
    | ok b =>
      cases h2 : l.mapM f with
      | error e => rw [h1, h2] at h; cases h
      | ok bs =>
        rw [h1, h2] at h
        cases h
        exact .cons h1 (mapM_forall₂ h2)

theorem bits_step {nd : Node} {ins : List ℕ} {rule : BwRule} {calls : ℕ} {s : QState} {envB : List (Except String (List ℤ))}
    {E : Set (List (List ℚ))} (hr : RuleOk nd rule s)
    (hB : ∀ (t : ℕ) bits, envB[t]? = some (.ok bits) → Describes bits {y | ∃ x ∈ E, y = x.getD t []})
    (hin : ∀ x ∈ E, nd.InRange s (gather x ins)) {bits : List ℤ}
    (h : actBitsOf nd rule calls s envB ins = .ok bits) :
    Describes bits {y | ∃ x ∈ E, y = nd.out s.fbw (gather x ins)} := by
  cases rule with
  | layer posOnly =>
    obtain ⟨q, hq, ht, h1, h2⟩ := hr
    obtain ⟨bits', hb, hd⟩ := C75_layer nd q hq s posOnly ht h1 h2
    unfold actBitsOf at h
    simp only [hq] at h
    rw [hb] at h
    cases h
    refine hd.mono ?_
    rintro y ⟨x, hx, rfl⟩
    exact ⟨_, hin x hx, rfl⟩
  | reshape =>
    have hr : nd = .passive fun ins => ins.headD [] := hr
    subst hr
    unfold actBitsOf lastBits at h
    dsimp only at h
    split_ifs at h
    match ins, h with
    | [i], h =>
      have hi : envB[i]? = some (.ok bits) := by
        dsimp only at h
        rw [List.getD_eq_getElem?_getD] at h
        cases he : envB[i]? with
        | none => rw [he] at h; cases h
        | some v => rw [he] at h; simpa using h
      refine (hB i bits hi).mono ?_
      rintro y ⟨x, hx, rfl⟩
      exact ⟨x, hx, rfl⟩
  | concat outer rests =>
    have hr : nd = .passive (concatFlat outer rests) := hr
    subst hr
    unfold actBitsOf at h
    dsimp only [bind, Except.bind, pure, Except.pure] at h
    cases hm : ins.mapM fun i => envB.getD i (.error "no such layer") with
    | error e => rw [hm] at h; cases h
    | ok bs =>
      rw [hm] at h
      cases h
      have hf := mapM_forall₂ hm
      have hD : List.Forall₂ Describes bs (ins.map fun t => {y | ∃ x ∈ E, y = x.getD t []}) := by
        rw [List.forall₂_map_right_iff]
        refine List.Forall₂.flip (hf.imp ?_)
        intro i b hb
        apply hB
        rw [List.getD_eq_getElem?_getD] at hb
        cases he : envB[i]? with
        | none => rw [he] at hb; cases hb
        | some v => rw [he] at hb; simpa using hb
      refine (C75_concat outer rests bs _ hD).mono ?_
      rintro y ⟨x, hx, rfl⟩
      refine ⟨gather x ins, ?_, rfl⟩
      unfold gather
      rw [List.forall₂_map_left_iff, List.forall₂_map_right_iff, List.forall₂_same]
      exact fun t _ => ⟨x, hx, rfl⟩
  | pool n wins => exact hr.elim
  | signature bits => exact hr.elim

theorem bits_env : ∀ {net : Net} {rules : List BwRule} {cs : List ℕ} {ss : List LState} {envB : List (Except String (List ℤ))}
    {E : Set (List (List ℚ))}, net.RulesOk rules ss → cs.length = net.length → (∀ x ∈ E, x.length = envB.length) →
    (∀ (t : ℕ) bits, envB[t]? = some (.ok bits) → Describes bits {y | ∃ x ∈ E, y = x.getD t []}) →
    (∀ x ∈ E, net.InRange (ss.map fun s => s.q) x) →
    ∀ (t : ℕ) bits, (actBitsEnv net rules cs ss envB)[t]? = some (.ok bits) →
      Describes bits {y | ∃ x ∈ E, y = (net.evalEnv (ss.map fun s => s.q.fbw) x).getD t []}
  | [], [], _, [], envB, E, _, _, _, hB, _ => by
    intro t bits h
    have h : envB[t]? = some (.ok bits) := by simpa [actBitsEnv] using h
    simpa [Net.evalEnv] using hB t bits h
  | (nd, ins) :: net, r :: rs, c :: cs, s :: ss, envB, E, hr, hc, hlen, hB, hin => by
    intro t bits h
    have hstep := fun (bits : List ℤ) => bits_step (calls := c) (ins := ins) (bits := bits) hr.1 hB (fun x hx => (hin x hx).1)
    have ih := bits_env (cs := cs) (E := {z | ∃ x ∈ E, z = x ++ [nd.out s.q.fbw (gather x ins)]})
      (envB := envB ++ [actBitsOf nd r c s.q envB ins]) hr.2 (by simpa using hc)
      (by rintro _ ⟨x, hx, rfl⟩; simp [hlen x hx])
      (by
        intro t bits ht
        by_cases h1 : t < envB.length
        · rw [List.getElem?_append_left h1] at ht
          refine (hB t bits ht).mono ?_
          rintro y ⟨_, ⟨x, hx, rfl⟩, rfl⟩
          refine ⟨x, hx, ?_⟩
          rw [getD_append_new, if_pos (by rw [hlen x hx]; exact h1)]
        · have ht2 : t = envB.length := by
            have := (List.getElem?_eq_some_iff.mp ht).1
            simp at this
            omega
          subst ht2
          rw [List.getElem?_append_right le_rfl] at ht
          simp only [Nat.sub_self, List.getElem?_cons_zero, Option.some.injEq] at ht
          refine (hstep bits ht).mono ?_
          rintro y ⟨_, ⟨x, hx, rfl⟩, rfl⟩
          refine ⟨x, hx, ?_⟩
          rw [getD_append_new, hlen x hx, if_neg (lt_irrefl _), if_pos rfl])
      (by rintro _ ⟨x, hx, rfl⟩; exact (hin x hx).2)
      t bits h
    refine ih.mono ?_
    rintro y ⟨x, hx, rfl⟩
    exact ⟨_, ⟨x, hx, rfl⟩, rfl⟩

/-- **C75**, whole models: in every feed-forward graph of HGQ layers, reshapes and concatenations with recorded ranges, the bits
reported for every tensor (and used to count the BOPs of the layers reading it) describe the values of the tensor on all inputs
that stay in the recorded ranges. Missing: pooling and `PPermute`, where it is false, and `Signature`, which reports what the
user declared. -/
theorem C75_model_partial (net : Net) (m : BopsModel) (ss : List LState) (hr : net.RulesOk m.bw ss)
    (hcalls : m.calls.length = net.length) (t : ℕ) (bits : List ℤ)
    (h : (actBitsEnv net m.bw m.calls ss
      (List.replicate m.nInputs (.error "'InputLayer' object has no attribute 'act_bw_exact'")))[t]? = some (.ok bits)) :
    Describes bits {y | ∃ x : List (List ℚ), x.length = m.nInputs ∧ net.InRange (ss.map fun s => s.q) x ∧
      y = (net.evalEnv (ss.map fun s => s.q.fbw) x).getD t []} := by
  have := bits_env (E := {x | x.length = m.nInputs ∧ net.InRange (ss.map fun s => s.q) x}) hr hcalls
    (by rintro x ⟨hx, -⟩; simp [hx])
    (by
      intro t bits ht
      rw [List.getElem?_replicate] at ht
      split_ifs at ht
      cases ht)
    (fun x hx => hx.2) t bits h
  refine this.mono ?_
  rintro y ⟨x, h1, h2, rfl⟩
  exact ⟨x, ⟨h1, h2⟩, rfl⟩

/-! ### C76 -/

theorem kernelBitsTrain_ge (L : LinLayer) (n : ℕ) (hf : ∀ j < n, L.kq.clip (L.kfbw j) ≤ 31) :
    List.Forall₂ (· ≤ ·) (L.kernelBits id n) (L.kernelBitsTrain n) := by
  have := C32_kernel_bw_partial L.kq.strategy ((List.range n).map fun j => (L.kernel j, L.kq.clip (L.kfbw j))) (by
    intro w hw
    obtain ⟨j, hj, rfl⟩ := List.mem_map.mp hw
    exact hf j (List.mem_range.mp hj))
  have e : kernelBw L.kq.strategy ((List.range n).map fun j => (L.kernel j, L.kq.clip (L.kfbw j))) = L.kernelBitsTrain n := by
    unfold kernelBw LinLayer.kernelBitsTrain
    rw [List.map_map]
    rfl
  rw [e] at this
  exact this

/-- **C76**, inputs: for the same recorded ranges, no position has fewer bits in the training-time estimate than in the exact
count. -/
theorem C76_input_bits {q : QSite} {s : QState} (h : SiteTraced q s) (posOnly : Bool) :
    ∃ bits, q.actBits posOnly s = .ok bits ∧ List.Forall₂ (· ≤ ·) bits (q.actBitsTrain posOnly s) := by
  refine ⟨_, actBits_eq h posOnly, ?_⟩
  unfold QSite.actBitsTrain
  simp only [List.forall₂_map_left_iff, List.forall₂_map_right_iff, List.forall₂_same]
  intro p hp
  obtain ⟨lo, hi, ht⟩ := h.range _ (elemOf_lt h.shape (List.mem_range.mp hp))
  obtain ⟨a, ha⟩ := ht.glo
  obtain ⟨b, hb⟩ := ht.ghi
  have hmn : s.mn (q.elem p) = (lo : WithTop ℚ) := ht.mn
  have hmx : s.mx (q.elem p) = (hi : WithBot ℚ) := ht.mx
  rw [hmn, hmx, WithTop.untopD_coe, WithBot.unbotD_coe]
  exact C32_act_bw_partial lo hi _ posOnly a b ht.fb ha hb ht.le

/-- **C76**: for the same weights and recorded ranges the BOPs shown during training (`bops`, `FreeBOPs`) are at least the exact
BOPs. Missing: the weight bits are those of exact arithmetic (in float32 `get_arr_bits` can count one more,
`C32_float32_underestimates`). -/
theorem C76_train_ge_exact_partial (L : LinLayer) (n pf : ℕ) (inBits inBw : List ℤ) (hin : ∀ b ∈ inBits, 0 ≤ b)
    (hi : List.Forall₂ (· ≤ ·) inBits inBw) (hf : ∀ j < n, L.kq.clip (L.kfbw j) ≤ 31) (rule : BopsRule)
    (hrule : rule = .dense n ∨ rule = .conv n pf) :
    ∃ b, (Node.linear L).exactBops rule id (.ok inBits) = .ok b ∧ b ≤ (Node.linear L).trainBops rule inBw := by
  have h0 : L.mulBits inBits (L.kernelBits id n) ≤ L.mulBits inBw (L.kernelBitsTrain n) := by
    rw [mulBits_eq, mulBits_eq]
    refine Finset.sum_le_sum fun p _ => ?_
    exact tapSum_mono (L.taps p) (getD_nonneg hin) (kernelBits_nonneg L id n hf) (getD_le hi)
      (getD_le (kernelBitsTrain_ge L n hf))
  have h1 : (L.mulBits inBits (L.kernelBits id n) : ℚ) ≤ L.mulBits inBw (L.kernelBitsTrain n) := by exact_mod_cast h0
  rcases hrule with rfl | rfl
  · exact ⟨_, rfl, h1⟩
  · refine ⟨_, rfl, ?_⟩
    exact div_le_div_of_nonneg_right (mul_le_mul_of_nonneg_right h1 (Nat.cast_nonneg _)) (Nat.cast_nonneg _)

/-! ### examples -/

/-- input quantizer (2 values) → dense 2x2 with ReLU → concatenation with the quantized input -/
def exBopsNet : Net :=
  [(.quantize ⟨⟨0, true, some (-10, 20), fun _ => 1, 7 / 10⟩, [2], [2]⟩, [0]),
   (.linear { exDense 0 [2] true with taps := denseTaps 2 2 }, [1]),
   (.passive (concatFlat 1 [2, 2]), [1, 2]),
   (.passive fun ins => ins.headD [], [3])]

def exBopsModel : BopsModel :=
  ⟨1, [.layer false, .layer true, .concat 1 [2, 2], .reshape], [.none, .dense 4, .none, .none], [1, 1, 1, 1]⟩

def exBopsStates : List LState :=
  [⟨⟨fun _ => 1, fun _ => ((-2 : ℚ) : WithTop ℚ), fun _ => ((3 / 2 : ℚ) : WithBot ℚ)⟩, false⟩,
   ⟨⟨fun _ => 2, fun _ => ((-1 : ℚ) : WithTop ℚ), fun _ => ((7 / 4 : ℚ) : WithBot ℚ)⟩, false⟩,
   ⟨⟨fun _ => 0, fun _ => ⊤, fun _ => ⊥⟩, false⟩, ⟨⟨fun _ => 0, fun _ => ⊤, fun _ => ⊥⟩, false⟩]

theorem exBops_rules : exBopsNet.RulesOk exBopsModel.bw exBopsStates := by
  refine ⟨⟨_, rfl, ⟨?_, ?_⟩, ?_, ?_⟩, ⟨⟨_, rfl, ⟨?_, ?_⟩, ?_, ?_⟩, rfl, rfl, trivial⟩⟩
  · exact ⟨by decide, .inr rfl, trivial⟩
  · intro e _
    exact ⟨-2, 3 / 2, rfl, rfl, by norm_num, ⟨-4, show (-2 : ℚ) = (-4 : ℤ) * 2 ^ (-tfRound 1) by decide +kernel⟩,
      ⟨3, show (3 / 2 : ℚ) = (3 : ℤ) * 2 ^ (-tfRound 1) by decide +kernel⟩, by norm_num, by norm_num, by
      show (-32 : ℚ) ≤ 1; norm_num⟩
  · intro L h; cases h
  · intro _ h; cases h
  · exact ⟨by decide, .inr rfl, trivial⟩
  · intro e _
    exact ⟨-1, 7 / 4, rfl, rfl, by norm_num, ⟨-4, show (-1 : ℚ) = (-4 : ℤ) * 2 ^ (-tfRound 2) by decide +kernel⟩,
      ⟨7, show (7 / 4 : ℚ) = (7 : ℤ) * 2 ^ (-tfRound 2) by decide +kernel⟩, by norm_num, by norm_num, by
      show (-32 : ℚ) ≤ 2; norm_num⟩
  · intro L h; cases h; rfl
  · intro h; exact absurd rfl (h _)

-- bits of the tensors, and the BOPs of the dense layer
example : (actBitsEnv exBopsNet exBopsModel.bw exBopsModel.calls exBopsStates [.error ""]).map
    (fun e => match e with | .ok b => b | .error _ => []) = [[], [3, 3], [3, 3], [3, 3, 3, 3], [3, 3, 3, 3]] := by decide +kernel
example : (match exBopsNet.exactBops exBopsModel id 1 exBopsStates with | .ok b => b | .error _ => -1) = 15 := by decide +kernel

/-- **C51**, error branch: if a listed dense or convolution layer is called more than once, or has several inputs,
`trace_minmax` raises instead of returning a number (unless no BOPs are asked for). -/
theorem C51_reused_refused (net : Net) (ts : List LTree) (outs : List ℕ) (m : BopsModel) (fl : ℚ → ℚ) (o : TraceOpts)
    (ss : List LState) (data : List (List (List ℚ))) (hc : net.Clip ss) (hb : o.noBops = false) (i : ℕ)
    (hi : i ∈ topLayers ts) (L : LinLayer) (ins : List ℕ) (hL : net[i]? = some (.linear L, ins)) (n pf c : ℕ)
    (hrule : m.bops[i]? = some (.dense n) ∨ m.bops[i]? = some (.conv n pf)) (hcalls : m.calls[i]? = some c)
    (hbad : 1 < c ∨ ins.length ≠ 1) :
    ∃ e, net.traceMinmax ts outs (net.exactBops m fl) o ss data = .error e := by
  cases h : net.traceMinmax ts outs (net.exactBops m fl) o ss data with
  | error e => exact ⟨e, rfl⟩
  | ok r =>
    exfalso
    obtain ⟨ss', r⟩ := r
    have hr : ∃ b, r = .bops b ∨ ∃ p, r = .withPreds b p := by
      obtain ⟨h1, h2, -⟩ := traceMinmax_states hc h
      rw [net.traceMinmax_eq ts outs _ o ss data hc h1 h2, hb] at h
      cases r with
      | bops b => exact ⟨b, .inl rfl⟩
      | withPreds b p => exact ⟨b, .inr ⟨p, rfl⟩⟩
      | minusOne =>
        exfalso
        simp only [Bool.false_eq_true, if_false, bind, Except.bind, pure, Except.pure] at h
        split at h
        · cases h
        · split_ifs at h
          · split at h <;> cases h
          · cases h
    obtain ⟨b, hr⟩ := hr
    obtain ⟨v, hv, -⟩ := C51_trace_sum net ts outs _ o ss ss' data r hc h b hr
    have hv := hv i hi _ _ hL rfl
    have herr : ∀ env, ∃ e, lastBits c env ins = .error e := by
      intro env
      unfold lastBits
      split_ifs with h1
      · exact ⟨_, rfl⟩
      · have : ins.length ≠ 1 := by tauto
        match ins, this with
        | [], _ => exact ⟨_, rfl⟩
        | [_], h => exact absurd rfl h
        | _ :: _ :: _, _ => exact ⟨_, rfl⟩
    unfold Net.exactBops at hv
    obtain ⟨e, he⟩ := herr (actBitsEnv net m.bw m.calls ss'
      (List.replicate m.nInputs (.error "'InputLayer' object has no attribute 'act_bw_exact'")))
    rcases hrule with hrule | hrule
    all_goals
      rw [hL, hrule, hcalls] at hv
      dsimp only at hv
      rw [he] at hv
      cases hv

-- trace_minmax of the example: inputs of 3 and 2 bits, weights of 1, 2, 1 and 1 bits
example : (match exBopsNet.traceMinmax [.layer 0, .layer 1, .layer 2, .layer 3] [4] (exBopsNet.exactBops exBopsModel id) {}
      exBopsStates [[[1, 3 / 2]], [[-2, 1 / 3]]] with
    | .ok (_, .bops b) => b | _ => -1) = 13 := by decide +kernel
-- the same dense layer called twice
example : (match exBopsNet.traceMinmax [.layer 0, .layer 1, .layer 2, .layer 3] [4]
      (exBopsNet.exactBops { exBopsModel with calls := [1, 2, 1, 1] } id) {} exBopsStates [[[1, 3 / 2]]] with
    | .ok _ => true | .error _ => false) = false := by decide +kernel

end HGQ
