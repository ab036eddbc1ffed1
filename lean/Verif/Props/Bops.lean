import Verif.Props.Linear
import Verif.Props.Trace
import Verif.Props.Container
import Mathlib.Data.Nat.Digits.Lemmas
import Verif.Model.Bops

/-!
C51: exact bit operations. C75: the bits reported for a tensor describe its values. C76: the training-time count is an upper
bound.
-/

namespace HGQ
open Spec

/-! ### Counting -/

theorem mulBits_eq (L : LinLayer) (a k : List ℤ) :
    L.mulBits a k = ∑ p ∈ Finset.range (prodL L.outShape), tapSum (L.taps p) (fun i => a.getD i 0) (fun j => k.getD j 0) := by
  unfold LinLayer.mulBits
  rw [list_sum_range]
  rfl

/-- **C51**, `HDense`: the BOPs are the sum over all products computed by the layer (rows `r`, outputs `c`, inputs `j`) of the
bits of the input times the bits of the weight. -/
theorem C51_dense (L : LinLayer) (lead : List ℕ) (cin cout n : ℕ) (hL : L.IsDense lead cin cout) (fl : ℚ → ℚ) (inBits : List ℤ) :
    (Node.linear L).exactBops (.dense n) fl (.ok inBits) =
      .ok ((∑ r ∈ Finset.range (prodL lead), ∑ c ∈ Finset.range cout, ∑ j ∈ Finset.range cin,
        inBits.getD (r * cin + j) 0 * (L.kernelBits fl n).getD (j * cout + c) 0 : ℤ) : ℚ) := by
  obtain ⟨ht, ho, -⟩ := hL
  have hpr : prodL L.outShape = prodL lead * cout := by rw [ho, prodL_append]; simp [prodL]
  have : L.mulBits inBits (L.kernelBits fl n) = ∑ r ∈ Finset.range (prodL lead), ∑ c ∈ Finset.range cout, ∑ j ∈ Finset.range cin,
        inBits.getD (r * cin + j) 0 * (L.kernelBits fl n).getD (j * cout + c) 0 := by
    rw [mulBits_eq, hpr, sum_range_mul]
    refine Finset.sum_congr rfl fun r _ => Finset.sum_congr rfl fun c hc => ?_
    rw [ht, dense_tapSum cin cout r c (Finset.mem_range.mp hc)]
  unfold Node.exactBops
  simp only [bind, Except.bind, pure, Except.pure]
  rw [this]

/-- **C51**, `HConv1D`: the same for a convolution, divided by the number of output positions and multiplied by the number of
them computed in parallel; products with padding zeros count nothing. -/
theorem C51_conv1d (L : LinLayer) (d : ConvDim) (cinK cout groups n pf : ℕ) (hL : L.IsConv1 d cinK cout groups) (fl : ℚ → ℚ)
    (inBits : List ℤ) :
    (Node.linear L).exactBops (.conv n pf) fl (.ok inBits) =
      .ok (((∑ o ∈ Finset.range d.out, ∑ c ∈ Finset.range cout,
        conv1 d.inp cinK groups d.kernel cout d.stride d.dilation d.padLo (fun i => inBits.getD i 0)
          (fun j => (L.kernelBits fl n).getD j 0) o c : ℤ) : ℚ) * pf / d.out) := by
  obtain ⟨ht, ho, -⟩ := hL
  have hpr : prodL L.outShape = d.out * cout := by rw [ho]; simp [prodL]
  have : L.mulBits inBits (L.kernelBits fl n) = ∑ o ∈ Finset.range d.out, ∑ c ∈ Finset.range cout,
        conv1 d.inp cinK groups d.kernel cout d.stride d.dilation d.padLo (fun i => inBits.getD i 0)
          (fun j => (L.kernelBits fl n).getD j 0) o c := by
    rw [mulBits_eq, hpr, sum_range_mul]
    refine Finset.sum_congr rfl fun o hoo => Finset.sum_congr rfl fun c hc => ?_
    rw [ht, conv1_tapSum d cinK cout groups o c (Finset.mem_range.mp hc) (Finset.mem_range.mp hoo)]
    simp only [pick_padded]
    rfl
  unfold Node.exactBops
  simp only [bind, Except.bind, pure, Except.pure]
  rw [this, ho]
  simp [prodL]

/-- **C51**, `HConv2D` -/
theorem C51_conv2d (L : LinLayer) (d e : ConvDim) (cinK cout groups n pf : ℕ) (hL : L.IsConv2 d e cinK cout groups) (fl : ℚ → ℚ)
    (inBits : List ℤ) :
    (Node.linear L).exactBops (.conv n pf) fl (.ok inBits) =
      .ok (((∑ o ∈ Finset.range d.out, ∑ o' ∈ Finset.range e.out, ∑ c ∈ Finset.range cout,
        conv2 d.inp e.inp cinK groups d.kernel e.kernel cout d.stride e.stride d.dilation e.dilation d.padLo e.padLo
          (fun i => inBits.getD i 0) (fun j => (L.kernelBits fl n).getD j 0) o o' c : ℤ) : ℚ) * pf / (d.out * e.out : ℕ)) := by
  obtain ⟨ht, ho, -⟩ := hL
  have hpr : prodL L.outShape = d.out * e.out * cout := by rw [ho]; simp [prodL, mul_assoc]
  have : L.mulBits inBits (L.kernelBits fl n) = ∑ o ∈ Finset.range d.out, ∑ o' ∈ Finset.range e.out, ∑ c ∈ Finset.range cout,
        conv2 d.inp e.inp cinK groups d.kernel e.kernel cout d.stride e.stride d.dilation e.dilation d.padLo e.padLo
          (fun i => inBits.getD i 0) (fun j => (L.kernelBits fl n).getD j 0) o o' c := by
    rw [mulBits_eq, hpr, sum_range_mul, sum_range_mul]
    refine Finset.sum_congr rfl fun o hoo => Finset.sum_congr rfl fun o' hoo' => Finset.sum_congr rfl fun c hc => ?_
    rw [ht, conv2_tapSum d e cinK cout groups o o' c (Finset.mem_range.mp hc) (Finset.mem_range.mp hoo')]
    simp only [pick_padded]
    rfl
  unfold Node.exactBops
  simp only [bind, Except.bind, pure, Except.pure]
  rw [this, ho]
  simp [prodL]

/-! ### Bits of weights -/

/-- the `j`-th quantized weight -/
theorem kernelBits_get (L : LinLayer) (fl : ℚ → ℚ) (n j : ℕ) (hj : j < n) :
    ∃ r : KIF, (getArrBits fl ((List.range n).map L.qkernel))[j]? = some r ∧
      (L.kernelBits fl n).getD j 0 = (maskKif r.k r.i r.f).i + (maskKif r.k r.i r.f).f := by
  have hlen : (getArrBits fl ((List.range n).map L.qkernel)).length = n := by simp [getArrBits]
  refine ⟨(getArrBits fl ((List.range n).map L.qkernel))[j]'(by omega), List.getElem?_eq_getElem (by omega), ?_⟩
  have e : (List.range n).map L.qkernel = ((List.range n).map fun j => (L.kernel j, L.kq.clip (L.kfbw j))).map
      fun wf => evalQ L.kq.strategy wf.2 wf.1 := by rw [List.map_map]; rfl
  unfold LinLayer.kernelBits getBitsExactRef
  rw [← e, List.map_map, List.getD_eq_getElem?_getD, List.getElem?_map, List.getElem?_eq_getElem (by omega)]
  rfl

theorem kernel_grid (L : LinLayer) (n : ℕ) (hf : ∀ j < n, L.kq.clip (L.kfbw j) ≤ 31) :
    ∀ a ∈ (List.range n).map L.qkernel, ∃ m : ℤ, a = m * (2 : ℚ) ^ (-31 : ℤ) := by
  intro a ha
  obtain ⟨j, hj, rfl⟩ := List.mem_map.mp ha
  have := hf j (List.mem_range.mp hj)
  have h2 := (abs_le.mp (tfRound_bounds (L.kq.clip (L.kfbw j)))).1
  have h3 : (tfRound (L.kq.clip (L.kfbw j)) : ℚ) < 32 := by linarith
  have : tfRound (L.kq.clip (L.kfbw j)) < 32 := by exact_mod_cast h3
  exact grid_mono (by omega) (evalQ_grid _ _ _)

theorem forall₂_get {α β : Type} {R : α → β → Prop} {l : List α} {l' : List β} (h : List.Forall₂ R l l') (j : ℕ) {a : α} {b : β}
    (ha : l[j]? = some a) (hb : l'[j]? = some b) : R a b := by
  have := List.forall₂_iff_get.mp h
  obtain ⟨h1, rfl⟩ := List.getElem?_eq_some_iff.mp ha
  obtain ⟨h2, rfl⟩ := List.getElem?_eq_some_iff.mp hb
  exact this.2 j h1 h2

/-- **C51**, pruned weights: under any rounding of float additions, a weight counts no bits if it is quantized to zero and at
least one bit otherwise. -/
theorem C51_zero_weights (L : LinLayer) (fl : ℚ → ℚ) (n j : ℕ) (hj : j < n) (hf : ∀ j < n, L.kq.clip (L.kfbw j) ≤ 31) :
    (L.qkernel j = 0 → (L.kernelBits fl n).getD j 0 = 0) ∧ (L.qkernel j ≠ 0 → 1 ≤ (L.kernelBits fl n).getD j 0) := by
  obtain ⟨r, hr, he⟩ := kernelBits_get L fl n j hj
  have hq : ((List.range n).map L.qkernel)[j]? = some (L.qkernel j) := by simp [hj]
  obtain ⟨⟨m, hm⟩, h2, h3⟩ := forall₂_get (C31_sound_any_rounding fl _ (kernel_grid L n hf)) j hq hr
  rw [he]
  constructor
  · intro h0
    have hz : r = arrBitsEntry (arrBitsN fl (((List.range n).map L.qkernel).map fun a => |a * p2 32|)) 0 := by
      rw [getArrBits_eq, List.getElem?_map, hq, Option.map_some, Option.some.injEq] at hr
      rw [← hr, h0]
    rw [arrBitsEntry_zero] at hz
    rw [hz]
    rfl
  · intro h0
    have hw : 1 ≤ r.i + r.f := by
      by_contra hc
      have hle : r.i ≤ -r.f := by omega
      have h4 : |L.qkernel j| < (2 : ℚ) ^ (-r.f) := lt_of_lt_of_le h2 (zpow_le_zpow_right₀ (by norm_num) hle)
      have hp : (0 : ℚ) < (2 : ℚ) ^ (-r.f) := zpow2_pos _
      rw [hm, abs_mul, abs_of_pos hp] at h4
      have h5 : |(m : ℚ)| < 1 := by
        by_contra h6
        push Not at h6
        have := mul_le_mul_of_nonneg_right h6 hp.le
        linarith
      have h6 : |m| < 1 := by exact_mod_cast h5
      have h7 : m = 0 := by
        rcases abs_choice m with h | h <;> have := abs_nonneg m <;> omega
      exact h0 (by rw [hm, h7]; simp)
    have hk : 0 ≤ r.k := by
      rw [getArrBits_eq, List.getElem?_map, hq, Option.map_some, Option.some.injEq] at hr
      rw [← hr]
      unfold arrBitsEntry
      dsimp only
      split_ifs <;> simp
    have hne : r.k + r.i + r.f ≠ 0 := by omega
    unfold maskKif
    rw [if_pos hne]
    dsimp only
    omega

/-- **C51**, bits of a weight: in exact arithmetic a non-zero weight counts the binary digits of its odd part (the digits of the
weight between the first and the last 1), whatever the number of bits it is quantized to. -/
theorem C51_weight_bits (L : LinLayer) (n j : ℕ) (hj : j < n) (hf : ∀ j < n, L.kq.clip (L.kfbw j) ≤ 31)
    (h0 : L.qkernel j ≠ 0) :
    ∃ (o : ℕ) (e : ℤ), Odd o ∧ |L.qkernel j| = o * (2 : ℚ) ^ e ∧
      (L.kernelBits id n).getD j 0 = (Nat.digits 2 o).length := by
  obtain ⟨r, hr, he⟩ := kernelBits_get L id n j hj
  have hq : ((List.range n).map L.qkernel)[j]? = some (L.qkernel j) := by simp [hj]
  obtain ⟨hk1, hk0, ⟨m, hm, hmq⟩, h3, h4⟩ :=
    (forall₂_get (C31_true_bits_partial _ (kernel_grid L n hf)) j hq hr).2 h0
  have hp : (0 : ℚ) < (2 : ℚ) ^ (-r.f) := zpow2_pos _
  have habs : |L.qkernel j| = (m.natAbs : ℚ) * (2 : ℚ) ^ (-r.f) := by
    rw [hmq, abs_mul, abs_of_pos hp, Nat.cast_natAbs, Int.cast_abs]
  have hodd : Odd m.natAbs := Int.natAbs_odd.mpr hm
  refine ⟨m.natAbs, -r.f, hodd, habs, ?_⟩
  have hmpos : m.natAbs ≠ 0 := hodd.pos.ne'
  have hw0 : 1 ≤ r.i + r.f := by
    have := (C51_zero_weights L id n j hj hf).2 h0
    rw [he] at this
    unfold maskKif at this
    split_ifs at this with hmk
    · simpa using this
    · simp at this
  have hk : 0 ≤ r.k := by
    by_cases hneg : L.qkernel j < 0
    · rw [hk1.mpr hneg]; norm_num
    · rw [hk0.mpr hneg]
  have hne : r.k + r.i + r.f ≠ 0 := by omega
  have he' : (L.kernelBits id n).getD j 0 = r.i + r.f := by
    rw [he]
    unfold maskKif
    rw [if_pos hne]
    dsimp only
    ring
  rw [he']
  obtain ⟨b, hb⟩ := Int.eq_ofNat_of_zero_le (show 0 ≤ r.i + r.f by omega)
  have hbpos : 1 ≤ b := by omega
  have hlow : 2 ^ (b - 1) ≤ m.natAbs := by
    rw [habs] at h3
    have : (2 : ℚ) ^ (r.i - 1) = (2 : ℚ) ^ ((b - 1 : ℕ) : ℤ) * (2 : ℚ) ^ (-r.f) := by
      rw [← zpow_add₀ (by norm_num)]; congr 1; omega
    rw [this, zpow_natCast] at h3
    have := le_of_mul_le_mul_right h3 hp
    exact_mod_cast this
  have hhigh : m.natAbs < 2 ^ b := by
    rw [habs] at h4
    have : (2 : ℚ) ^ r.i = (2 : ℚ) ^ ((b : ℕ) : ℤ) * (2 : ℚ) ^ (-r.f) := by
      rw [← zpow_add₀ (by norm_num)]; congr 1; omega
    rw [this, zpow_natCast] at h4
    have := lt_of_mul_lt_mul_right h4 hp.le
    exact_mod_cast this
  rw [hb]
  have hdig : (Nat.digits 2 m.natAbs).length = b := by
    rw [Nat.digits_len 2 _ (by norm_num) hmpos]
    have : Nat.log 2 m.natAbs = b - 1 := by
      rw [Nat.log_eq_iff (Or.inr ⟨by norm_num, hmpos⟩)]
      refine ⟨hlow, ?_⟩
      rw [Nat.sub_add_cancel hbpos]; exact hhigh
    omega
  rw [hdig]

/-! ### Bits of inputs -/

/-- a quantizer state with all ranges recorded, on the quantizer's grid -/
structure SiteTraced (q : QSite) (s : QState) : Prop where
  shape : Compat q.outShape q.qShape
  range : ∀ e < prodL q.qShape, ∃ lo hi, Traced s e lo hi

theorem rangeOk_traced {s : QState} {e : ℕ} {lo hi : ℚ} (h : Traced s e lo hi) : rangeOk (s.mn e) (s.mx e) = true := by
  rw [h.mn, h.mx]
  simp [rangeOk, h.le]

theorem actBits_eq {q : QSite} {s : QState} (h : SiteTraced q s) (posOnly : Bool) :
    q.actBits posOnly s = .ok ((List.range (prodL q.outShape)).map fun p =>
      actBwExact ((s.mn (q.elem p)).untopD 0) ((s.mx (q.elem p)).unbotD 0) (s.fbw (q.elem p)) posOnly) := by
  have hall : ((List.range (prodL q.qShape)).all fun e => rangeOk (s.mn e) (s.mx e)) = true := by
    rw [List.all_eq_true]
    intro e he
    obtain ⟨lo, hi, ht⟩ := h.range e (List.mem_range.mp he)
    exact rangeOk_traced ht
  unfold QSite.actBits QState.getBitsExact
  rw [if_pos hall]
  rfl

theorem fb_ge {x : ℚ} (h : -32 ≤ x) : -32 ≤ tfRound x := tfRound_ge (by exact_mod_cast h)

/-- a type without bits contains only zero -/
theorem kif_no_bits {k i f : ℤ} {v : ℚ} (hk : k = 0 ∨ k = 1) (hz : k + i + f = 0) (hv : IsKif k i f v) : v = 0 := by
  obtain ⟨⟨n, hn⟩, h1, h2⟩ := hv
  have hpf : (0 : ℚ) < (2 : ℚ) ^ (-f) := zpow2_pos _
  have hi : (2 : ℚ) ^ i ≤ (2 : ℚ) ^ (-f) := zpow_le_zpow_right₀ (by norm_num) (by omega)
  have hk2 : (k : ℚ) * (2 : ℚ) ^ i < (2 : ℚ) ^ (-f) := by
    rcases hk with rfl | rfl
    · simpa using hpf
    · rw [Int.cast_one, one_mul]
      exact zpow_lt_zpow_right₀ (by norm_num) (by omega)
  rw [hn] at h1 h2
  have a1 : (-1 : ℚ) < n := by
    by_contra hc; push Not at hc
    have := mul_le_mul_of_nonneg_right hc hpf.le
    linarith
  have a2 : (n : ℚ) < 1 := by
    by_contra hc; push Not at hc
    have := mul_le_mul_of_nonneg_right hc hpf.le
    linarith
  have b1 : -1 < n := by exact_mod_cast a1
  have b2 : n < 1 := by exact_mod_cast a2
  have : n = 0 := by omega
  rw [hn, this]; simp

/-- **C51**, dead inputs: a position whose recorded range is {0} (or, before a ReLU, has no positive value) has no bits; every
other position has at least one. -/
theorem C51_dead_inputs {q : QSite} {s : QState} (h : SiteTraced q s) (posOnly : Bool) :
    ∃ bits, q.actBits posOnly s = .ok bits ∧ bits.length = prodL q.outShape ∧
      ∀ p < prodL q.outShape, ∀ lo hi : ℚ, s.mn (q.elem p) = (lo : WithTop ℚ) → s.mx (q.elem p) = (hi : WithBot ℚ) →
        0 ≤ bits.getD p 0 ∧ (bits.getD p 0 = 0 ↔ if posOnly then hi ≤ 0 else lo = 0 ∧ hi = 0) := by
  refine ⟨_, actBits_eq h posOnly, by simp, fun p hp lo hi hlo hhi => ?_⟩
  have hlt : q.elem p < prodL q.qShape := elemOf_lt h.shape hp
  obtain ⟨lo', hi', ht⟩ := h.range _ hlt
  have e1 : lo' = lo := WithTop.coe_injective (ht.mn.symm.trans hlo)
  have e2 : hi' = hi := WithBot.coe_injective (ht.mx.symm.trans hhi)
  subst e1 e2
  rw [List.getD_eq_getElem?_getD, List.getElem?_map, List.getElem?_range hp]
  simp only [Option.map_some, Option.getD_some, hlo, hhi, WithTop.untopD_coe, WithBot.unbotD_coe]
  have hwf := bitsExact_wf lo' hi' (s.fbw (q.elem p)) posOnly (fb_ge ht.fb)
  have hnn : 0 ≤ actBwExact lo' hi' (s.fbw (q.elem p)) posOnly := by
    unfold actBwExact
    dsimp only
    omega
  refine ⟨hnn, ?_⟩
  have hsum : actBwExact lo' hi' (s.fbw (q.elem p)) posOnly = (bitsExact lo' hi' (s.fbw (q.elem p)) posOnly).k +
      (bitsExact lo' hi' (s.fbw (q.elem p)) posOnly).i + (bitsExact lo' hi' (s.fbw (q.elem p)) posOnly).f := by
    unfold actBwExact
    dsimp only
    ring
  rw [hsum]
  cases posOnly with
  | true =>
    simp only [if_true]
    constructor
    · intro hz
      have hc := bitsExact_pos_covers (mn := lo') ht.ghi le_rfl ht.ub
      have := kif_no_bits hwf.1 hz hc
      exact (le_max_left _ _).trans this.le
    · exact fun hle => bitsExact_pos_zero (fb_ge ht.fb) hle
  | false =>
    simp only [Bool.false_eq_true, if_false]
    constructor
    · intro hz
      exact ⟨kif_no_bits hwf.1 hz (bitsExact_neg_covers ht.glo le_rfl ht.le ht.lb ht.ub),
        kif_no_bits hwf.1 hz (bitsExact_neg_covers ht.ghi ht.le le_rfl ht.lb ht.ub)⟩
    · rintro ⟨rfl, rfl⟩
      have hp := p2_pos (-tfRound (s.fbw (q.elem p)))
      have hr := fb_ge ht.fb
      unfold bitsExact
      simp only [Bool.false_eq_true, if_false, zero_add, abs_zero, abs_of_pos hp, ceilLog2, if_true, hp.ne', lt_self_iff_false]
      have hcl : Int.clog 2 (p2 (-tfRound (s.fbw (q.elem p)))) = -tfRound (s.fbw (q.elem p)) := by
        unfold p2
        exact_mod_cast Int.clog_zpow (R := ℚ) (b := 2) (by norm_num) _
      rw [hcl]
      generalize tfRound (s.fbw (q.elem p)) = f at *
      change (maskKif 0 (clipBits ((-f : ℤ) : WithBot ℤ) (-f - 0)) f).k + (maskKif 0 (clipBits ((-f : ℤ) : WithBot ℤ) (-f - 0)) f).i +
        (maskKif 0 (clipBits ((-f : ℤ) : WithBot ℤ) (-f - 0)) f).f = 0
      have hcb : clipBits ((-f : ℤ) : WithBot ℤ) (-f - 0) = -f := by
        change min (max (-f) (-f - 0)) 32 = -f
        omega
      rw [hcb]
      simp [maskKif]

/-! ### Sign and monotonicity -/

theorem getD_le {a b : List ℤ} (h : List.Forall₂ (· ≤ ·) a b) (i : ℕ) : a.getD i 0 ≤ b.getD i 0 := by
  induction h generalizing i with
  | nil => simp
  | cons h1 _ ih =>
    cases i with
    | zero => simpa using h1
    | succ i => simpa using ih i

theorem getD_nonneg {a : List ℤ} (h : ∀ x ∈ a, 0 ≤ x) (i : ℕ) : 0 ≤ a.getD i 0 := by
  rw [List.getD_eq_getElem?_getD]
  cases hi : a[i]? with
  | none => simp
  | some v => exact h v (List.mem_of_getElem? hi)

theorem tapSum_mono (taps : List (ℕ × ℕ)) {x x' k k' : ℕ → ℤ} (hx : ∀ i, 0 ≤ x i) (hk : ∀ i, 0 ≤ k i) (hxx : ∀ i, x i ≤ x' i)
    (hkk : ∀ i, k i ≤ k' i) : tapSum taps x k ≤ tapSum taps x' k' := by
  unfold tapSum
  induction taps with
  | nil => simp
  | cons t ts ih =>
    simp only [List.map_cons, List.sum_cons]
    have := mul_le_mul (hxx t.1) (hkk t.2) (hk _) ((hx t.1).trans (hxx t.1))
    omega

theorem kernelBits_nonneg (L : LinLayer) (fl : ℚ → ℚ) (n : ℕ) (hf : ∀ j < n, L.kq.clip (L.kfbw j) ≤ 31) (j : ℕ) :
    0 ≤ (L.kernelBits fl n).getD j 0 := by
  by_cases hj : j < n
  · have h := C51_zero_weights L fl n j hj hf
    by_cases h0 : L.qkernel j = 0
    · rw [h.1 h0]
    · have := h.2 h0; omega
  · have hlen : (L.kernelBits fl n).length = n := by simp [LinLayer.kernelBits, getBitsExactRef, getArrBits]
    rw [List.getD_eq_getElem?_getD, List.getElem?_eq_none (by omega)]
    simp

/-- **C51**, sign: the BOPs of a layer are never negative (weights with at most 31 fractional bits; input bits are not negative,
see `C51_dead_inputs`). -/
theorem C51_nonneg (L : LinLayer) (fl : ℚ → ℚ) (n pf : ℕ) (inBits : List ℤ) (hin : ∀ b ∈ inBits, 0 ≤ b)
    (hf : ∀ j < n, L.kq.clip (L.kfbw j) ≤ 31) :
    (∃ b, (Node.linear L).exactBops (.dense n) fl (.ok inBits) = .ok b ∧ 0 ≤ b) ∧
    (∃ b, (Node.linear L).exactBops (.conv n pf) fl (.ok inBits) = .ok b ∧ 0 ≤ b) := by
  have h0 : 0 ≤ L.mulBits inBits (L.kernelBits fl n) := by
    rw [mulBits_eq]
    refine Finset.sum_nonneg fun p _ => ?_
    have h1 := tapSum_mono (L.taps p) (x := fun _ => 0) (k := fun _ => 0) (x' := fun i => inBits.getD i 0)
      (k' := fun j => (L.kernelBits fl n).getD j 0) (fun _ => le_rfl) (fun _ => le_rfl) (getD_nonneg hin)
      (kernelBits_nonneg L fl n hf)
    refine le_trans (le_of_eq ?_) h1
    unfold tapSum
    simp
  have h1 : (0 : ℚ) ≤ (L.mulBits inBits (L.kernelBits fl n) : ℚ) := by exact_mod_cast h0
  refine ⟨⟨_, rfl, h1⟩, ⟨_, rfl, ?_⟩⟩
  exact div_nonneg (mul_nonneg h1 (Nat.cast_nonneg _)) (Nat.cast_nonneg _)

/-- **C51**, monotonicity: if no input and no weight loses bits, the BOPs do not decrease (`L'` is the layer with other weights
or bitwidths). -/
theorem C51_monotone (L L' : LinLayer) (fl : ℚ → ℚ) (n pf : ℕ) (inBits inBits' : List ℤ) (hin : ∀ b ∈ inBits, 0 ≤ b)
    (hf : ∀ j < n, L.kq.clip (L.kfbw j) ≤ 31) (ht : L'.taps = L.taps) (ho : L'.outShape = L.outShape)
    (hi : List.Forall₂ (· ≤ ·) inBits inBits') (hk : List.Forall₂ (· ≤ ·) (L.kernelBits fl n) (L'.kernelBits fl n)) :
    (∃ b b', (Node.linear L).exactBops (.dense n) fl (.ok inBits) = .ok b ∧
      (Node.linear L').exactBops (.dense n) fl (.ok inBits') = .ok b' ∧ b ≤ b') ∧
    (∃ b b', (Node.linear L).exactBops (.conv n pf) fl (.ok inBits) = .ok b ∧
      (Node.linear L').exactBops (.conv n pf) fl (.ok inBits') = .ok b' ∧ b ≤ b') := by
  have h0 : L.mulBits inBits (L.kernelBits fl n) ≤ L'.mulBits inBits' (L'.kernelBits fl n) := by
    rw [mulBits_eq, mulBits_eq, ho, ht]
    refine Finset.sum_le_sum fun p _ => ?_
    exact tapSum_mono (L.taps p) (getD_nonneg hin) (kernelBits_nonneg L fl n hf) (getD_le hi) (getD_le hk)
  have h1 : (L.mulBits inBits (L.kernelBits fl n) : ℚ) ≤ L'.mulBits inBits' (L'.kernelBits fl n) := by exact_mod_cast h0
  refine ⟨⟨_, _, rfl, rfl, h1⟩, ⟨_, _, rfl, rfl, ?_⟩⟩
  rw [ho]
  exact div_le_div_of_nonneg_right (mul_le_mul_of_nonneg_right h1 (Nat.cast_nonneg _)) (Nat.cast_nonneg _)

/-- **C51**, ranges: an input position with a wider recorded range has at least as many bits. -/
theorem C51_wider_range (lo hi lo' hi' fbw : ℚ) (posOnly : Bool) (hf : -32 ≤ fbw)
    (g1 : ∃ n : ℤ, lo = n * (2 : ℚ) ^ (-tfRound fbw)) (g2 : ∃ n : ℤ, hi = n * (2 : ℚ) ^ (-tfRound fbw))
    (hle : lo ≤ hi) (h1 : lo' ≤ lo) (h2 : hi ≤ hi') (hlo : -(2 : ℚ) ^ (32 : ℤ) ≤ lo') (hhi : hi' < (2 : ℚ) ^ (32 : ℤ)) :
    actBwExact lo hi fbw posOnly ≤ actBwExact lo' hi' fbw posOnly := by
  have hr := fb_ge hf
  obtain ⟨a, ha⟩ := g1
  obtain ⟨b, hb⟩ := g2
  have hwf := bitsExact_wf lo' hi' fbw posOnly hr
  have hwf0 := bitsExact_wf lo hi fbw posOnly hr
  cases posOnly with
  | true =>
    have hc : IsKif _ _ _ (max hi 0) := bitsExact_pos_covers (mn := lo') (fbw := fbw) (v := hi) (mx := hi') ⟨b, hb⟩ h2 hhi
    have hm : ∀ f i k : ℤ, (k = 0 ∨ k = 1) → 0 ≤ k + i + f → f = tfRound fbw → IsKif k i f (max hi 0) →
        actBwExact lo hi fbw true ≤ i + f + k := by
      intro f i k hk hw hff hkif
      subst hff
      have := C18_minimal_pos_only lo hi fbw _ b rfl hb k i hk hw hkif
      unfold actBwExact
      dsimp only at this ⊢
      omega
    rcases hwf.2.2 with hff | h0
    · exact hm _ _ _ hwf.1 hwf.2.1 hff hc
    · have hz := kif_no_bits hwf.1 (by rw [h0]; rfl) hc
      have h3 : hi ≤ 0 := (le_max_left _ _).trans hz.le
      have h4 := bitsExact_pos_zero (mn := lo) (fbw := fbw) hr h3
      unfold actBwExact
      dsimp only
      omega
  | false =>
    have c1 := bitsExact_neg_covers (fbw := fbw) ⟨a, ha⟩ h1 (hle.trans h2) hlo hhi
    have c2 := bitsExact_neg_covers (fbw := fbw) ⟨b, hb⟩ (h1.trans hle) h2 hlo hhi
    have hm : ∀ f i k : ℤ, (k = 0 ∨ k = 1) → 0 ≤ k + i + f → f = tfRound fbw → IsKif k i f lo → IsKif k i f hi →
        actBwExact lo hi fbw false ≤ i + f + k := by
      intro f i k hk hw hff k1 k2
      subst hff
      have := C18_minimal lo hi fbw _ a b rfl ha hb hle k i hk hw k1 k2
      unfold actBwExact
      dsimp only at this ⊢
      omega
    rcases hwf.2.2 with hff | h0
    · exact hm _ _ _ hwf.1 hwf.2.1 hff c1 c2
    · have e1 := kif_no_bits hwf.1 (by rw [h0]; rfl) c1
      have e2 := kif_no_bits hwf.1 (by rw [h0]; rfl) c2
      have hk0 : ∀ f : ℤ, IsKif 0 (-f) f 0 := fun f => ⟨⟨0, by simp⟩, by simp, zpow2_pos _⟩
      have := hm (tfRound fbw) (-tfRound fbw) 0 (.inl rfl) (by omega) rfl (by rw [e1]; exact hk0 _) (by rw [e2]; exact hk0 _)
      have hnn : 0 ≤ actBwExact lo' hi' fbw false := by
        unfold actBwExact
        dsimp only
        omega
      omega

/-! ### Sums over a model -/

theorem sumBops_ok {bopsOf : ℕ → List LState → Except String ℚ} {ss : List LState} :
    ∀ {I : List ℕ} {b : ℚ}, sumBops bopsOf ss I = .ok b →
      ∃ v : ℕ → ℚ, (∀ i ∈ I, bopsOf i ss = .ok (v i)) ∧ b = (I.map v).sum
  | [], b, h => by cases h; exact ⟨fun _ => 0, by simp, by simp⟩
  | i :: I, b, h => by
    unfold sumBops at h
    cases h1 : bopsOf i ss with
    | error e => rw [h1] at h; cases h
    | ok x =>
      cases h2 : sumBops bopsOf ss I with
      | error e => rw [h1, h2] at h; cases h
      | ok y =>
        rw [h1, h2] at h
        cases h
        obtain ⟨v, hv, rfl⟩ := sumBops_ok h2
        refine ⟨fun j => match bopsOf j ss with | .ok z => z | .error _ => 0, ?_, ?_⟩
        · intro j hj
          rcases List.mem_cons.mp hj with rfl | hj
          · simp [h1]
          · simp [hv j hj]
        · simp only [List.map_cons, List.sum_cons, h1]
          congr 2
          apply List.map_congr_left
          intro j hj
          rw [hv j hj]

theorem sumBops_error {bopsOf : ℕ → List LState → Except String ℚ} {ss : List LState} {i : ℕ} {e : String} :
    ∀ {I : List ℕ}, i ∈ I → bopsOf i ss = .error e → ∃ e', sumBops bopsOf ss I = .error e'
  | j :: I, hi, he => by
    unfold sumBops
    cases h1 : bopsOf j ss with
    | error e' => exact ⟨e', rfl⟩
    | ok x =>
      have hI : i ∈ I := by
        rcases List.mem_cons.mp hi with rfl | h
        · rw [h1] at he; cases he
        · exact h
      obtain ⟨e', h2⟩ := sumBops_error hI he
      exact ⟨e', by rw [h2]; rfl⟩

/-- **C51**, `trace_minmax`: the number returned is the sum, over the HGQ layers listed by the model, of the layers' exact BOPs
computed from the ranges it leaves behind. -/
theorem C51_trace_sum (net : Net) (ts : List LTree) (outs : List ℕ) (bopsOf : ℕ → List LState → Except String ℚ)
    (o : TraceOpts) (ss ss' : List LState) (data : List (List (List ℚ))) (r : TraceRes) (hc : net.Clip ss)
    (h : net.traceMinmax ts outs bopsOf o ss data = .ok (ss', r)) (b : ℚ)
    (hr : r = .bops b ∨ ∃ p, r = .withPreds b p) :
    ∃ v : ℕ → ℚ, (∀ i ∈ topLayers ts, ∀ nd ins, net[i]? = some (nd, ins) → nd.site.isSome → bopsOf i ss' = .ok (v i)) ∧
      b = (((topLayers ts).filter fun i => ((net[i]?).map fun ni => ni.1.site.isSome) = some true).map v).sum := by
  obtain ⟨hb, hcov, hss⟩ := traceMinmax_states hc h
  rw [net.traceMinmax_eq ts outs bopsOf o ss data hc hb hcov] at h
  have hfil : net.hLayers (topLayers ts) =
      (topLayers ts).filter fun i => ((net[i]?).map fun ni => ni.1.site.isSome) = some true := by
    unfold Net.hLayers
    congr 1
    funext i
    cases hi : net[i]? <;> simp
  have hsum : sumBops bopsOf ss' (net.hLayers (topLayers ts)) = .ok b := by
    rw [hss]
    split_ifs at h with h1 h2
    · cases h
      rcases hr with hr | ⟨p, hr⟩ <;> cases hr
    all_goals
      cases hs : sumBops bopsOf (net.traceStates (topLayers ts) o ss data) (net.hLayers (topLayers ts)) with
      | error e => simp only [bind, Except.bind, hs] at h; cases h
      | ok b' =>
        simp only [bind, Except.bind, pure, Except.pure, hs] at h
        first
        | (cases hp : concatPreds outs ((chunks o.bsz data).map fun b => b.map (net.evalEnv (ss.map fun s => s.q.fbw))) with
           | error e => rw [hp] at h; cases h
           | ok p =>
             rw [hp] at h
             cases h
             rcases hr with hr | ⟨p', hr⟩ <;> cases hr
             rfl)
        | (cases h
           rcases hr with hr | ⟨p', hr⟩ <;> cases hr
           rfl)
  obtain ⟨v, hv, hbv⟩ := sumBops_ok hsum
  refine ⟨v, fun i hi nd ins hnd hsite => hv i ?_, by rw [hbv, hfil]⟩
  rw [hfil, List.mem_filter]
  refine ⟨hi, ?_⟩
  simp [hnd, hsite]

/-- **C51**, `FreeBOPs`: the number shown after each epoch is the sum of the BOPs of all layers of the model, those of nested
models included, each counted once if it is listed once. -/
theorem C51_free_bops (b : ℕ → Option ℚ) (ts : List LTree) (S : Finset ℕ) (hS : ∀ i, i ∈ S ↔ InModel i ts)
    (hnd : (leaves ts).Nodup) : freeBops b ts = ∑ i ∈ S, (b i).getD 0 := by
  have : S = (leaves ts).toFinset := by
    ext i
    rw [hS, List.mem_toFinset, mem_leaves]
  rw [freeBops_eq, this, List.sum_toFinset _ hnd]

-- a dense layer and a nested model with another one; layer 2 has no BOPs
example : freeBops (fun i => [some 3, some 5, none].getD i none) [.layer 0, .model [.layer 1, .layer 2]] = 8 := by decide +kernel
example : (leaves [.layer 0, .model [.layer 1, .layer 2]]).Nodup := by decide

end HGQ
