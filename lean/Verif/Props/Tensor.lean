import Verif.Lemmas.Tensor
import Verif.Lemmas.Bits
import Mathlib.Data.Nat.Size
import Mathlib.Algebra.BigOperators.Group.List.Lemmas

/-!
C55: shape and degeneracy of the bitwidth tensor account for every value. C56: recording of minima and maxima works.
C77: the estimate of the bits of a kernel with shared bitwidths.

`Skipped n dims i` says that dimension `i` of a tensor of rank `n` is listed in `dims`, negative numbers counting from the end.
-/

namespace HGQ

/-- number of values of a shape, unknown dimensions counted once (a single sample) -/
def numValues (s : List (Option ℕ)) : ℕ := ∏ i ∈ Finset.range s.length, (s.getD i none).getD 1

theorem pyIndex_isSome {n : ℕ} {d : ℤ} (h : -(n : ℤ) ≤ d ∧ d < n) : (pyIndex n d).isSome := by
  unfold pyIndex
  split_ifs <;> simp <;> omega

/-! ### C55 -/

open Classical in
/-- **C55**, for every shape (also with unknown dimensions) and every `skip_dims` whose entries are dimensions: the bitwidth tensor
has size 1 along the listed dimensions and the size of the values along the others, and number of elements times degeneracy is
the number of values. -/
theorem C55_shape (s : List (Option ℕ)) (skip : SkipDims) (dims : List ℤ) (hres : skip.resolve s.length = .ok dims)
    (hv : ∀ d ∈ dims, -(s.length : ℤ) ≤ d ∧ d < s.length) :
    ∃ bs deg, bwShape s skip = .ok (bs, deg) ∧ bs.length = s.length ∧
      (∀ i < s.length, bs[i]? = if Skipped s.length dims i then some (some 1) else s[i]?) ∧
      numValues bs * deg = numValues s := by
  obtain ⟨bs, h1, h2, h3⟩ := bwLoop_spec dims s 1 fun d hd => pyIndex_isSome (hv d hd)
  refine ⟨bs, _, Eq.trans ?_ h1, h2, h3, ?_⟩
  · unfold bwShape
    rw [hres]
    rfl
  · unfold numValues
    rw [h2, one_mul, ← Finset.prod_mul_distrib]
    refine Finset.prod_congr rfl fun i hi => ?_
    have := h3 i (Finset.mem_range.mp hi)
    rw [List.getD_eq_getElem?_getD, List.getD_eq_getElem?_getD, this]
    split_ifs <;> simp

/-- **C55**: the bitwidth tensor can be created (all its dimensions are known) if and only if all unknown dimensions are listed. -/
theorem C55_known (s : List (Option ℕ)) (skip : SkipDims) (dims : List ℤ) (hres : skip.resolve s.length = .ok dims)
    (bs : List (Option ℕ)) (deg : ℕ) (h : bwShape s skip = .ok (bs, deg)) :
    (∀ d ∈ bs, d ≠ none) ↔ ∀ i < s.length, s[i]? = some none → Skipped s.length dims i := by
  have hv : ∀ d ∈ dims, (pyIndex s.length d).isSome := by
    intro d hd
    by_contra hc
    rw [Option.not_isSome_iff_eq_none] at hc
    unfold bwShape at h
    rw [hres] at h
    change bwLoop s 1 dims = _ at h
    rw [bwLoop_error dims s 1 ⟨d, hd, hc⟩] at h
    cases h
  obtain ⟨bs', h1, h2, h3⟩ := bwLoop_spec dims s 1 hv
  have hb : bs' = bs := by
    unfold bwShape at h
    rw [hres] at h
    change bwLoop s 1 dims = _ at h
    rw [h1] at h
    cases h; rfl
  subst hb
  constructor
  · intro hk i hi hn
    by_contra hns
    have := h3 i hi
    rw [if_neg hns, hn] at this
    exact hk none (List.mem_of_getElem? this) rfl
  · intro hk d hd
    obtain ⟨i, hi, rfl⟩ := List.mem_iff_getElem.mp hd
    rw [h2] at hi
    have := h3 i hi
    rw [List.getElem?_eq_getElem (by omega)] at this
    split_ifs at this with hs
    · rw [Option.some.inj this]; simp
    · intro hn
      rw [hn] at this
      exact hs (hk i hi this.symm)

open Classical in
/-- **C55**, element by element, for shapes with known dimensions: every bitwidth is used by exactly `degeneracy` values.
`bcastIdx bs i` is the element used by the value at index `i` (broadcasting). -/
theorem C55_fibers (s : List ℕ) (skip : SkipDims) (bs : List ℕ) (deg : ℕ)
    (h : bwShape (s.map some) skip = .ok (bs.map some, deg)) (e : List ℕ) (he : e ∈ indices bs) :
    ((indices s).filter fun i => decide (bcastIdx bs i = e)).length = deg := by
  unfold bwShape at h
  cases hres : skip.resolve (s.map some).length with
  | error m => rw [hres] at h; cases h
  | ok dims =>
    rw [hres] at h
    change bwLoop (s.map some) 1 dims = _ at h
    have hv : ∀ d ∈ dims, (pyIndex (s.map some).length d).isSome := by
      intro d hd
      by_contra hc
      rw [Option.not_isSome_iff_eq_none] at hc
      rw [bwLoop_error dims _ 1 ⟨d, hd, hc⟩] at h
      cases h
    obtain ⟨bs', h1, h2, h3⟩ := bwLoop_spec dims (s.map some) 1 hv
    rw [h1] at h
    cases h
    rw [List.length_map] at h3 ⊢
    have := fiber_count s bs (fun i => Skipped s.length dims i) (by simpa using h2) (by
      intro i hi
      have := h3 i hi
      rw [List.getElem?_map, List.getElem?_map] at this
      split_ifs at this ⊢ with hs
      · cases hb : bs[i]? with
        | none => rw [hb] at this; cases this
        | some x => rw [hb] at this; simpa using this
      · cases hb : bs[i]? with
        | none => rw [hb] at this; cases hs : s[i]? with
          | none => rfl
          | some y => rw [hs] at this; cases this
        | some x => rw [hb] at this; cases hs : s[i]? with
          | none => rw [hs] at this; cases this
          | some y => rw [hs] at this; simpa using this) e he
    rw [← List.countP_eq_length_filter, this, one_mul]
    refine Finset.prod_congr rfl fun i hi => ?_
    have hi := Finset.mem_range.mp hi
    congr 1
    simp [List.getD_eq_getElem?_getD, hi]

/-- **C55**: the named modes, for tensors of every rank of at least one. -/
theorem C55_modes (n : ℕ) (hn : 0 < n) :
    (∃ l, SkipDims.resolve n (.mode "all") = .ok l ∧ ∀ i < n, Skipped n l i) ∧
    (∃ l, SkipDims.resolve n (.mode "batch") = .ok l ∧ ∀ i < n, Skipped n l i ↔ i = 0) ∧
    (∃ l, SkipDims.resolve n (.mode "none") = .ok l ∧ ∀ i < n, ¬ Skipped n l i) ∧
    (∃ l, SkipDims.resolve n (.mode "except_last") = .ok l ∧ ∀ i < n, Skipped n l i ↔ i ≠ n - 1) ∧
    (∃ l, SkipDims.resolve n (.mode "except_1st") = .ok l ∧ ∀ i < n, Skipped n l i ↔ i ≠ 1) ∧
    (∀ md, md ∉ ["all", "batch", "none", "except_last", "except_1st"] → SkipDims.resolve n (.mode md) = .error "ValueError") := by
  have hpy : ∀ i : ℕ, pyIndex n (i : ℤ) = if i < n then some i else none := by
    intro i
    unfold pyIndex
    rw [if_pos (by omega)]
    by_cases h : i < n
    · rw [if_pos h, if_pos (by omega)]; simp
    · rw [if_neg h, if_neg (by omega)]
  refine ⟨⟨_, rfl, ?_⟩, ⟨_, rfl, ?_⟩, ⟨_, rfl, ?_⟩, ⟨_, rfl, ?_⟩, ⟨_, rfl, ?_⟩, ?_⟩
  · intro i hi
    exact ⟨(i : ℤ), List.mem_map.mpr ⟨i, List.mem_range.mpr hi, rfl⟩, by rw [hpy, if_pos hi]⟩
  · intro i hi
    have h0 := hpy 0
    rw [if_pos hn] at h0
    constructor
    · rintro ⟨d, hd, he⟩
      rw [List.mem_singleton.mp hd] at he
      change pyIndex n ((0 : ℕ) : ℤ) = _ at he
      rw [h0] at he
      exact (Option.some.inj he).symm
    · rintro rfl
      exact ⟨0, by simp, h0⟩
  · rintro i hi ⟨d, hd, -⟩
    cases hd
  · intro i hi
    constructor
    · rintro ⟨d, hd, he⟩
      obtain ⟨j, hj, rfl⟩ := List.mem_map.mp hd
      have hj := List.mem_range.mp hj
      change pyIndex n (j : ℤ) = _ at he
      rw [hpy, if_pos (by omega)] at he
      have := Option.some.inj he
      omega
    · intro hne
      exact ⟨(i : ℤ), List.mem_map.mpr ⟨i, List.mem_range.mpr (by omega), rfl⟩, by rw [hpy, if_pos hi]⟩
  · intro i hi
    constructor
    · rintro ⟨d, hd, he⟩
      rcases List.mem_cons.mp hd with rfl | hd
      · change pyIndex n ((0 : ℕ) : ℤ) = _ at he
        rw [hpy, if_pos hn] at he
        have := Option.some.inj he
        omega
      · obtain ⟨j, hj, rfl⟩ := List.mem_map.mp hd
        have hj := List.mem_range'_1.mp hj
        change pyIndex n (j : ℤ) = _ at he
        rw [hpy] at he
        split_ifs at he
        have := Option.some.inj he
        omega
    · intro hne
      rcases Nat.eq_zero_or_pos i with rfl | hpos
      · exact ⟨0, by simp, by have := hpy 0; rwa [if_pos hn] at this⟩
      · exact ⟨(i : ℤ), .tail _ (List.mem_map.mpr ⟨i, List.mem_range'_1.mpr (by omega), rfl⟩), by rw [hpy, if_pos hi]⟩
  · intro md hmd
    unfold SkipDims.resolve
    split <;> simp_all

/-- **C55**, error branch: an entry of `skip_dims` that is not a dimension raises. -/
theorem C55_bad_dimension (s : List (Option ℕ)) (dims : List ℤ) (d : ℤ) (hd : d ∈ dims) (hbad : d < -(s.length : ℤ) ∨ s.length ≤ d) :
    bwShape s (.dims dims) = .error "IndexError" :=
  bwLoop_error dims s 1 ⟨d, hd, by
    unfold pyIndex
    split_ifs <;> first | rfl | omega⟩

/-- the hypotheses of `C55_shape` and `C55_fibers`: an image batch with bitwidths per channel, per sample, and a negative and a
repeated dimension -/
example : bwShape [none, some 4, some 4, some 3] (.mode "except_last") = .ok ([some 1, some 1, some 1, some 3], 16) := by decide
example : bwShape [some 2, some 4, some 5] (.mode "except_1st") = .ok ([1, 4, 1].map some, 10) := by decide
example : bwShape [some 2, some 4, some 5] (.dims [-1, 2, 0]) = .ok ([1, 4, 1].map some, 10) := by decide
example : ((indices [2, 4, 5]).filter fun i => decide (bcastIdx [1, 4, 1] i = [0, 3, 0])).length = 10 :=
  C55_fibers [2, 4, 5] (.mode "except_1st") [1, 4, 1] 10 rfl [0, 3, 0] (by decide)

/-! ### C56 -/

/-- the shape of the record for a batch of shape `s` -/
theorem record_shape {s bs : List ℕ} {dims : List ℤ} {deg : ℕ} (h : bwShape (s.map some) (.dims dims) = .ok (bs.map some, deg)) :
    (∀ d ∈ dims, (pyIndex s.length d).isSome) ∧ bs.length = s.length ∧
      ∀ i < s.length, (Skipped s.length dims i → bs[i]? = some 1) ∧ (¬ Skipped s.length dims i → bs[i]? = s[i]?) := by
  change bwLoop (s.map some) 1 dims = _ at h
  have hv : ∀ d ∈ dims, (pyIndex (s.map some).length d).isSome := by
    intro d hd
    by_contra hc
    rw [Option.not_isSome_iff_eq_none] at hc
    rw [bwLoop_error dims _ 1 ⟨d, hd, hc⟩] at h
    cases h
  obtain ⟨bs', h1, h2, h3⟩ := bwLoop_spec dims (s.map some) 1 hv
  rw [h1] at h
  cases h
  have hinj : ∀ {a b : Option ℕ}, a.map some = b.map some → a = b := by
    intro a b hab
    cases a <;> cases b <;> simp_all
  rw [List.length_map] at hv h3
  refine ⟨hv, by simpa using h2, fun i hi => ⟨fun hs => ?_, fun hs => ?_⟩⟩
  · have := h3 i hi
    rw [if_pos hs, List.getElem?_map] at this
    exact hinj this
  · have := h3 i hi
    rw [if_neg hs, List.getElem?_map, List.getElem?_map] at this
    exact hinj this

/-- a reduction over the first `m` dimensions, for `min` and for `max` at once: `P` is any property of values such that
`P (op a b) ↔ P a ∧ P b` -/
theorem reduce_gen {α : Type} (op : α → α → α) (unit : α) (dims : List ℤ) (s bs : List ℕ) (x : List ℕ → α) (deg m : ℕ)
    (hshape : bwShape (s.map some) (.dims dims) = .ok (bs.map some, deg)) (hnd : (dims.map (pyIndex s.length)).Nodup)
    (hm : ∀ i < s.length, Skipped s.length dims i ↔ i < m) :
    ∃ (red : Tensor α) (m : ℕ), (⟨s, x⟩ : Tensor α).reduceDims op unit dims = .ok red ∧ red.shape = s.drop m ∧
      bs = List.replicate m 1 ++ s.drop m ∧ m ≤ s.length ∧
      ∀ (P : α → Prop), (∀ a b, P (op a b) ↔ P a ∧ P b) → P unit → ∀ e2 ∈ indices (s.drop m),
        (P (red.get e2) ↔ ∀ i1 ∈ indices (s.take m), P (x (i1 ++ e2))) := by
  obtain ⟨hv, hbl, hb⟩ := record_shape hshape
  set n := s.length with hn
  -- at most n leading dimensions
  obtain ⟨m, hmn, hm⟩ : ∃ m ≤ n, ∀ i < n, Skipped n dims i ↔ i < m :=
    ⟨min m n, min_le_right _ _, fun i hi => by rw [hm i hi]; omega⟩
  have hs : s = s.take m ++ s.drop m := (List.take_append_drop m s).symm
  have hlt : (s.take m).length = m := by rw [List.length_take]; omega
  have hld : (s.drop m).length = n - m := by rw [List.length_drop]
  have hbs : bs = List.replicate m 1 ++ s.drop m := by
    apply List.ext_getElem?
    intro i
    by_cases hi : i < n
    · by_cases him : i < m
      · rw [(hb i hi).1 ((hm i hi).mpr him), List.getElem?_append_left (by simpa using him), List.getElem?_replicate, if_pos him]
      · rw [(hb i hi).2 (mt (hm i hi).mp him), List.getElem?_append_right (by simpa using him), List.getElem?_drop,
          List.length_replicate, Nat.add_sub_cancel' (by omega)]
    · rw [List.getElem?_eq_none (by omega), List.getElem?_eq_none (by simp; omega)]
  suffices hred : ∃ red : Tensor α, (⟨s, x⟩ : Tensor α).reduceDims op unit dims = .ok red ∧ red.shape = s.drop m ∧
      ∀ (P : α → Prop), (∀ a b, P (op a b) ↔ P a ∧ P b) → P unit → ∀ e2 ∈ indices (s.drop m),
        (P (red.get e2) ↔ ∀ i1 ∈ indices (s.take m), P (x (i1 ++ e2))) by
    obtain ⟨red, h1, h2, h3⟩ := hred
    exact ⟨red, m, h1, h2, hbs, hmn, h3⟩
  by_cases hd : dims = []
  · have hm0 : m = 0 := by
      by_contra hne
      obtain ⟨d, hd', -⟩ := (hm 0 (by omega)).mpr (by omega)
      rw [hd] at hd'; cases hd'
    refine ⟨⟨s, x⟩, by unfold Tensor.reduceDims; rw [if_pos hd], by rw [hm0]; rfl, ?_⟩
    intro P _ _ e2 _
    rw [hm0, List.take_zero]
    simp [indices]
  · obtain ⟨mask, hmask⟩ := axisMask_exists hv hnd
    obtain ⟨hml, hmi⟩ := axisMask_ok hmask
    have hmask' := mask_prefix hmn hml fun i hi => (hmi i hi).trans (hm i hi)
    have hkeep : ∀ i1 i2 : List ℕ, i1.length = m → i2.length = n - m → keepDims mask (i1 ++ i2) = i2 := by
      intro i1 i2 h1 h2
      have := keepDims_prefix i1 i2
      rwa [h1, h2, ← hmask'] at this
    refine ⟨(⟨s, x⟩ : Tensor α).reduce op unit mask, ?_, ?_, ?_⟩
    · unfold Tensor.reduceDims; rw [if_neg hd]; dsimp only; rw [← hn, hmask]
    · show keepDims mask s = _
      conv_lhs => rw [hs]
      exact hkeep _ _ hlt hld
    · intro P hop hunit e2 he2
      have hfold : ∀ l : List α, P (l.foldr op unit) ↔ ∀ a ∈ l, P a := by
        intro l
        induction l with
        | nil => simpa using hunit
        | cons a l ih => rw [List.foldr_cons, hop, ih]; simp
      show P (List.foldr op unit _) ↔ _
      rw [hfold]
      constructor
      · intro h i1 hi1
        refine h _ (List.mem_map.mpr ⟨i1 ++ e2, List.mem_filter.mpr ⟨?_, ?_⟩, rfl⟩)
        · show i1 ++ e2 ∈ indices s
          rw [hs]; exact indices_append.mpr ⟨i1, hi1, e2, he2, rfl⟩
        · rw [decide_eq_true_eq]
          exact hkeep _ _ (by rw [indices_length hi1, hlt]) (by rw [indices_length he2, hld])
      · intro h a ha
        obtain ⟨i, hi, rfl⟩ := List.mem_map.mp ha
        obtain ⟨hi, hk⟩ := List.mem_filter.mp hi
        rw [decide_eq_true_eq] at hk
        change i ∈ indices s at hi
        rw [hs] at hi
        obtain ⟨i1, hi1, i2, hi2, rfl⟩ := indices_append.mp hi
        rw [hkeep _ _ (by rw [indices_length hi1, hlt]) (by rw [indices_length hi2, hld])] at hk
        rw [hk]
        exact h i1 hi1

/-- the values that use element `e` of a bitwidth tensor shared along the first `m` dimensions -/
theorem sharing_iff {s bs : List ℕ} {m : ℕ} (hmn : m ≤ s.length) (hbs : bs = List.replicate m 1 ++ s.drop m) {e1 e2 : List ℕ}
    (he1 : e1 ∈ indices (List.replicate m 1)) (he2 : e2 ∈ indices (s.drop m)) (Q : List ℕ → Prop) :
    (∀ i ∈ indices s, bcastIdx bs i = e1 ++ e2 → Q i) ↔ ∀ i1 ∈ indices (s.take m), Q (i1 ++ e2) := by
  have hs : s = s.take m ++ s.drop m := (List.take_append_drop m s).symm
  have hlt : (s.take m).length = m := by rw [List.length_take]; omega
  have he1 := indices_ones he1
  constructor
  · intro h i1 hi1
    refine h (i1 ++ e2) ?_ ?_
    · rw [hs]; exact indices_append.mpr ⟨i1, hi1, e2, he2, rfl⟩
    · rw [hbs, bcastIdx_append_ones m _ i1 e2 (by rw [indices_length hi1, hlt]), bcastIdx_self he2, he1]
  · intro h i hi hie
    rw [hs] at hi
    obtain ⟨i1, hi1, i2, hi2, rfl⟩ := indices_append.mp hi
    rw [hbs, bcastIdx_append_ones m _ i1 i2 (by rw [indices_length hi1, hlt]), bcastIdx_self hi2, he1] at hie
    rw [List.append_cancel_left hie]
    exact h i1 hi1

/-- the update of a record, for `min` and for `max` at once -/
theorem record_gen {α : Type} (op : α → α → α) (unit : α) (dims : List ℤ) (xq var : Tensor α) (deg m : ℕ)
    (hshape : bwShape (xq.shape.map some) (.dims dims) = .ok (var.shape.map some, deg))
    (hnd : (dims.map (pyIndex xq.shape.length)).Nodup)
    (hm : ∀ i < xq.shape.length, Skipped xq.shape.length dims i ↔ i < m) :
    ∃ t, recordUpdate op unit dims xq var = .ok t ∧ t.shape = var.shape ∧
      ∀ (P : α → Prop), (∀ a b, P (op a b) ↔ P a ∧ P b) → P unit → ∀ e ∈ indices var.shape,
        (P (t.get e) ↔ P (var.get e) ∧ ∀ i ∈ indices xq.shape, bcastIdx var.shape i = e → P (xq.get i)) := by
  obtain ⟨s, x⟩ := xq
  obtain ⟨bs, v⟩ := var
  dsimp only at hshape hnd hm ⊢
  obtain ⟨red, m, hr1, hr2, hbs, hmn, hr3⟩ := reduce_gen op unit dims s bs x deg m hshape hnd hm
  have hbc : bcShape red.shape bs = some bs := by
    rw [hr2, hbs]
    apply bcShape_same
    · simp
    · simp [padOnes]
  refine ⟨⟨bs, fun i => op (red.bget i) ((⟨bs, v⟩ : Tensor α).bget i)⟩, ?_, rfl, ?_⟩
  · unfold recordUpdate
    rw [hr1]
    simp only [bind, Except.bind, Tensor.map2, hbc, assignVar, if_true]
  · intro P hop hunit e he
    show P (op (red.bget e) _) ↔ _
    rw [hop]
    have he' := he
    rw [hbs] at he'
    obtain ⟨e1, he1, e2, he2, rfl⟩ := indices_append.mp he'
    have hvb : (⟨bs, v⟩ : Tensor α).bget (e1 ++ e2) = v (e1 ++ e2) := by
      unfold Tensor.bget
      dsimp only
      rw [indices_length he, Nat.sub_self, List.drop_zero, bcastIdx_self he]
    have hrb : red.bget (e1 ++ e2) = red.get e2 := by
      unfold Tensor.bget
      rw [hr2, List.length_append, indices_length he2, Nat.add_sub_cancel, List.drop_left, bcastIdx_self he2]
    rw [hvb, hrb, hr3 P hop hunit e2 he2, and_comm, sharing_iff hmn hbs he1 he2 fun i => P (x i)]

/-- **C56**, for `skip_dims` listing the first `m` dimensions (in any order; `m = 0`: none): recording succeeds, and element by
element the new minimum is the smaller of the old one and the smallest of the values that use the element, the new maximum the
larger of the old one and the largest value (stated by their bounds). Missing: other `skip_dims`, for which the code raises, see
`C56_other_dimensions`. -/
theorem C56_record_partial (dims : List ℤ) (xs : List ℕ) (x : List ℕ → ℚ) (mn : Tensor (WithTop ℚ)) (mx : Tensor (WithBot ℚ))
    (deg m : ℕ) (hshape : bwShape (xs.map some) (.dims dims) = .ok (mn.shape.map some, deg)) (hmx : mx.shape = mn.shape)
    (hnd : (dims.map (pyIndex xs.length)).Nodup) (hm : ∀ i < xs.length, Skipped xs.length dims i ↔ i < m) :
    (∃ t, recordUpdate min ⊤ dims ⟨xs, fun i => (x i : WithTop ℚ)⟩ mn = .ok t ∧ t.shape = mn.shape ∧
      ∀ e ∈ indices mn.shape, ∀ c : WithTop ℚ,
        c ≤ t.get e ↔ c ≤ mn.get e ∧ ∀ i ∈ indices xs, bcastIdx mn.shape i = e → c ≤ x i) ∧
    (∃ t, recordUpdate max ⊥ dims ⟨xs, fun i => (x i : WithBot ℚ)⟩ mx = .ok t ∧ t.shape = mx.shape ∧
      ∀ e ∈ indices mx.shape, ∀ c : WithBot ℚ,
        t.get e ≤ c ↔ mx.get e ≤ c ∧ ∀ i ∈ indices xs, bcastIdx mx.shape i = e → x i ≤ c) := by
  constructor
  · obtain ⟨t, h1, h2, h3⟩ := record_gen (min : WithTop ℚ → WithTop ℚ → WithTop ℚ) ⊤ dims ⟨xs, fun i => (x i : WithTop ℚ)⟩ mn deg m hshape hnd hm
    exact ⟨t, h1, h2, fun e he c => h3 (fun a => c ≤ a) (fun a b => le_min_iff) le_top e he⟩
  · obtain ⟨t, h1, h2, h3⟩ := record_gen (max : WithBot ℚ → WithBot ℚ → WithBot ℚ) ⊥ dims ⟨xs, fun i => (x i : WithBot ℚ)⟩ mx deg m
      (by rw [hmx]; exact hshape) hnd hm
    exact ⟨t, h1, h2, fun e he c => h3 (fun a => a ≤ c) (fun a b => max_le_iff) bot_le e he⟩

theorem keepDims_length {α : Type} (mask : List Bool) (s : List α) (h : mask.length = s.length) :
    (keepDims mask s).length = mask.countP (fun b => !b) := by
  induction mask generalizing s with
  | nil => cases s with
    | nil => rfl
    | cons a s => simp at h
  | cons b mask ih =>
    cases s with
    | nil => simp at h
    | cons a s =>
      have := ih s (by simpa using h)
      cases b <;> simp [keepDims, this]

theorem keepDims_mem {α : Type} (mask : List Bool) (s : List α) (a : α) (h : a ∈ keepDims mask s) :
    ∃ i : ℕ, mask[i]? = some false ∧ s[i]? = some a := by
  induction mask generalizing s with
  | nil => cases s <;> simp [keepDims] at h
  | cons b mask ih =>
    cases s with
    | nil => cases b <;> simp [keepDims] at h
    | cons c s =>
      cases b with
      | true =>
        obtain ⟨i, h1, h2⟩ := ih s h
        exact ⟨i + 1, by simpa using h1, by simpa using h2⟩
      | false =>
        rw [keepDims] at h
        rcases List.mem_cons.mp h with rfl | h
        · exact ⟨0, rfl, rfl⟩
        · obtain ⟨i, h1, h2⟩ := ih s h
          exact ⟨i + 1, by simpa using h1, by simpa using h2⟩

/-- **C56** is violated by the code for all other `skip_dims`: if the values have some dimension `i` with its own bitwidths in front
of a dimension `j` that shares them, and more than one entry along every dimension with its own bitwidths, then recording raises. -/
theorem C56_other_dimensions {α : Type} (op : α → α → α) (unit : α) (dims : List ℤ) (xq var : Tensor α) (deg : ℕ)
    (hshape : bwShape (xq.shape.map some) (.dims dims) = .ok (var.shape.map some, deg))
    (i j : ℕ) (hij : i < j) (hj : j < xq.shape.length) (hi' : ¬ Skipped xq.shape.length dims i) (hj' : Skipped xq.shape.length dims j)
    (hbig : ∀ k < xq.shape.length, ¬ Skipped xq.shape.length dims k → 1 < xq.shape.getD k 0) :
    ∃ err, recordUpdate op unit dims xq var = .error err := by
  obtain ⟨s, x⟩ := xq
  obtain ⟨bs, v⟩ := var
  dsimp only at hshape hi' hj' hbig hj ⊢
  obtain ⟨hv, hbl, hb⟩ := record_shape hshape
  have hd : dims ≠ [] := by rintro rfl; obtain ⟨d, hd, -⟩ := hj'; cases hd
  unfold recordUpdate Tensor.reduceDims
  dsimp only
  rw [if_neg hd]
  cases hmask : axisMask s.length dims with
  | error e => exact ⟨e, rfl⟩
  | ok mask =>
    obtain ⟨hml, hmi⟩ := axisMask_ok hmask
    simp only [bind, Except.bind, Tensor.map2, Tensor.reduce]
    cases hbc : bcShape (keepDims mask s) bs with
    | none => exact ⟨_, rfl⟩
    | some r =>
      dsimp only
      unfold assignVar
      rw [if_neg]
      · exact ⟨_, rfl⟩
      · rintro (rfl : r = bs)
        -- a shared dimension among the last ones
        set q := (keepDims mask s).length with hq
        have hqc : q = mask.countP (fun b => !b) := keepDims_length mask s hml
        have hqn : q ≤ s.length := by rw [hqc, ← hml]; exact List.countP_le_length
        have hex : ∃ k, s.length - q ≤ k ∧ k < s.length ∧ Skipped s.length dims k := by
          by_contra hno
          push Not at hno
          have hfalse : ∀ k, k < s.length → ¬ Skipped s.length dims k → mask[k]? = some false := by
            intro k hk hks
            have h1 := mt (hmi k hk).mp hks
            have h2 : mask[k]? = some mask[k] := List.getElem?_eq_getElem (by omega)
            rw [h2] at h1 ⊢
            simpa using h1
          have hdrop : (mask.drop (s.length - q)).countP (fun b => !b) = q := by
            have hlen : (mask.drop (s.length - q)).length = q := by rw [List.length_drop, hml]; omega
            refine Eq.trans (List.countP_eq_length.mpr ?_) hlen
            intro b hb'
            obtain ⟨k, hk, rfl⟩ := List.mem_iff_getElem.mp hb'
            rw [List.length_drop, hml] at hk
            have := hfalse (s.length - q + k) (by omega) (hno _ (by omega) (by omega))
            rw [List.getElem?_eq_getElem (by omega)] at this
            rw [List.getElem_drop, Option.some.inj this]
            rfl
          have htake : (mask.take (s.length - q)).countP (fun b => !b) = 0 := by
            have := List.countP_append (p := fun b => !b) (l₁ := mask.take (s.length - q)) (l₂ := mask.drop (s.length - q))
            rw [List.take_append_drop, ← hqc, hdrop] at this
            omega
          rw [List.countP_eq_zero] at htake
          -- i is among the first ones
          have hji : j < s.length - q := by
            by_contra hc
            exact hno j (by omega) hj hj'
          have hmi' := hfalse i (by omega) hi'
          have : false ∈ mask.take (s.length - q) := by
            apply List.mem_of_getElem? (i := i)
            rw [List.getElem?_take_of_lt (by omega), hmi']
          simpa using htake false this
        obtain ⟨k, hk1, hk2, hk3⟩ := hex
        have hbk := (hb k hk2).1 hk3
        unfold bcShape at hbc
        have hmax : max (keepDims mask s).length r.length = s.length := by rw [hbl]; exact max_eq_right hqn
        simp only [hmax] at hbc
        rw [mapM_option_eq] at hbc
        have hpad : padOnes s.length r = r := by simp [padOnes, hbl]
        rw [hpad] at hbc
        have hlen1 : (padOnes s.length (keepDims mask s)).length = s.length := by
          simp only [padOnes, List.length_append, List.length_replicate]; omega
        have hk2' : k < (List.zip (padOnes s.length (keepDims mask s)) r).length := by
          rw [List.length_zip, hlen1, hbl]; omega
        have hget := (List.forall₂_iff_get.mp hbc).2 k hk2' (by omega)
        simp only [List.get_eq_getElem, List.getElem_zip] at hget
        have hr1 : r[k] = 1 := by
          rw [List.getElem?_eq_getElem (by omega)] at hbk
          exact Option.some.inj hbk
        have hkd : (padOnes s.length (keepDims mask s))[k]? = some ((padOnes s.length (keepDims mask s))[k]) :=
          List.getElem?_eq_getElem (by omega)
        have hmem : (padOnes s.length (keepDims mask s))[k] ∈ keepDims mask s := by
          apply List.mem_of_getElem? (i := k - (s.length - q))
          rw [← hkd]
          unfold padOnes
          rw [List.getElem?_append_right (by rw [List.length_replicate]; exact hk1), List.length_replicate]
        obtain ⟨p, hp1, hp2⟩ := keepDims_mem _ _ _ hmem
        have hpl : p < s.length := (List.getElem?_eq_some_iff.mp hp2).1
        have hps : ¬ Skipped s.length dims p := by
          rw [← hmi p hpl, hp1]; simp
        have := hbig p hpl hps
        rw [List.getD_eq_getElem?_getD, hp2, Option.getD_some] at this
        rw [hr1] at hget
        unfold bcDim at hget
        rw [if_neg (by omega), if_pos rfl] at hget
        have := Option.some.inj hget
        omega

/-- **C56** is violated by the code for the documented mode 'except_1st' (bitwidths per channel of channels-first data): for every
batch of rank three or more with more than one channel, recording raises. -/
theorem C56_except_1st {α : Type} (op : α → α → α) (unit : α) (b c d : ℕ) (rest : List ℕ) (hc : 1 < c) (x : List ℕ → α)
    (var : Tensor α) (dims : List ℤ) (deg : ℕ) (hdims : SkipDims.resolve (b :: c :: d :: rest).length (.mode "except_1st") = .ok dims)
    (hshape : bwShape ((b :: c :: d :: rest).map some) (.dims dims) = .ok (var.shape.map some, deg)) :
    ∃ err, recordUpdate op unit dims ⟨b :: c :: d :: rest, x⟩ var = .error err := by
  obtain ⟨l, hl, hsk⟩ := (C55_modes (b :: c :: d :: rest).length (by simp)).2.2.2.2.1
  rw [hdims] at hl
  obtain rfl : dims = l := by cases hl; rfl
  refine C56_other_dimensions op unit dims ⟨b :: c :: d :: rest, x⟩ var deg hshape 1 2 (by decide) (by simp) ?_ ?_ ?_
  · exact fun h => (hsk 1 (by simp)).mp h rfl
  · exact (hsk 2 (by simp)).mpr (by decide)
  · intro k hk hks
    have : k = 1 := by
      by_contra hne
      exact hks ((hsk k hk).mpr hne)
    subst this
    exact hc

/-- the hypotheses of `C56_record_partial`: a batch of two 2-channel samples with bitwidths per channel; the minima are recorded -/
example : (match recordUpdate min ⊤ [0, 1] ⟨[2, 1, 2], fun i => ((i.sum : ℚ) : WithTop ℚ)⟩ ⟨[1, 1, 2], fun _ => ⊤⟩ with
    | .ok t => (indices [1, 1, 2]).map t.get | .error _ => []) = [((0 : ℚ) : WithTop ℚ), ((1 : ℚ) : WithTop ℚ)] := by
  decide +kernel
example : bwShape ([2, 1, 2].map some) (.dims [0, 1]) = .ok ([1, 1, 2].map some, 2) ∧
    ([0, 1].map (pyIndex 3)).Nodup ∧ ∀ i < 3, Skipped 3 [0, 1] i ↔ i < 2 := by
  refine ⟨by decide, by decide, fun i hi => ?_⟩
  match i with
  | 0 => exact ⟨fun _ => by decide, fun _ => ⟨0, by decide, by decide⟩⟩
  | 1 => exact ⟨fun _ => by decide, fun _ => ⟨1, by decide, by decide⟩⟩
  | 2 =>
    refine ⟨?_, fun h => by omega⟩
    rintro ⟨d, hd, he⟩
    simp only [List.mem_cons, List.not_mem_nil, or_false] at hd
    rcases hd with rfl | rfl <;> exact absurd he (by decide)
  | (k + 3) => omega
/-- the hypotheses of `C56_except_1st` -/
example : SkipDims.resolve 3 (.mode "except_1st") = .ok [0, 2] ∧
    bwShape ([1, 2, 3].map some) (.dims [0, 2]) = .ok ([1, 2, 1].map some, 3) ∧
    (match recordUpdate (α := WithTop ℚ) min ⊤ [0, 2] ⟨[1, 2, 3], fun _ => ((0 : ℚ) : WithTop ℚ)⟩ ⟨[1, 2, 1], fun _ => ⊤⟩ with
      | .ok _ => true | .error _ => false) = false := by
  decide +kernel

/-! ### C77 -/

/-- the bits of a single weight as estimated during training: the binary digits of its magnitude on the grid of `f` fractional bits -/
theorem reluBits_eq_size (m f : ℤ) : reluBits ((floorLog2 |(m : ℚ) * (2 : ℚ) ^ (-f)|).map (· + 1)) f = Nat.size m.natAbs := by
  by_cases h0 : m = 0
  · subst h0
    simp [floorLog2]
    rfl
  · have hpos : 0 < |(m : ℚ) * (2 : ℚ) ^ (-f)| := by
      rw [abs_pos]
      exact mul_ne_zero (by exact_mod_cast h0) (zpow_ne_zero _ (by norm_num))
    have hlog : Int.log 2 |(m : ℚ) * (2 : ℚ) ^ (-f)| = (Nat.size m.natAbs : ℤ) - 1 - f := by
      have hsz : Nat.size m.natAbs ≠ 0 := by
        rw [Ne, Nat.size_eq_zero]; omega
      obtain ⟨k, hk⟩ := Nat.exists_eq_succ_of_ne_zero hsz
      have h1 : 2 ^ k ≤ m.natAbs := Nat.lt_size.mp (by omega)
      have h2 : m.natAbs < 2 ^ (k + 1) := Nat.size_le.mp (by omega)
      have h1 : (2 : ℚ) ^ k ≤ (m.natAbs : ℚ) := by exact_mod_cast h1
      have h2 : (m.natAbs : ℚ) < (2 : ℚ) ^ (k + 1) := by exact_mod_cast h2
      have habs : |(m : ℚ) * (2 : ℚ) ^ (-f)| = (m.natAbs : ℚ) * p2 (-f) := by
        rw [abs_mul, abs_of_pos (zpow2_pos _), Nat.cast_natAbs, Int.cast_abs]
        rfl
      have a1 : p2 (k - f) ≤ |(m : ℚ) * (2 : ℚ) ^ (-f)| := by
        rw [habs, sub_eq_add_neg, p2_add, p2_natCast]
        exact mul_le_mul_of_nonneg_right (by push_cast; exact h1) (p2_pos _).le
      have a2 : |(m : ℚ) * (2 : ℚ) ^ (-f)| < p2 (k + 1 - f) := by
        rw [habs, sub_eq_add_neg, p2_add, show ((k : ℤ) + 1) = ((k + 1 : ℕ) : ℤ) by push_cast; rfl, p2_natCast]
        exact mul_lt_mul_of_pos_right (by push_cast; exact h2) (p2_pos _)
      have b1 := (p2_le_log _ hpos).mp a1
      have b2 := (lt_p2_log _ hpos).mp a2
      omega
    unfold floorLog2
    rw [if_neg hpos.ne', hlog]
    show max (((Nat.size m.natAbs : ℤ) - 1 - f + 1) + f) 0 = _
    rw [show ((Nat.size m.natAbs : ℤ) - 1 - f + 1) + f = Nat.size m.natAbs by ring]
    exact max_eq_left (by positivity)

theorem reluBits_le {i : WithBot ℤ} {f c : ℤ} (hc : 0 ≤ c) : reluBits i f ≤ c ↔ i ≤ ((c - f : ℤ) : WithBot ℤ) := by
  cases i with
  | bot => exact ⟨fun _ => bot_le, fun _ => hc⟩
  | coe n =>
    show max (n + f) 0 ≤ c ↔ _
    rw [WithBot.coe_le_coe, max_le_iff]
    omega

theorem bcShape_ones (s1 s2 : List ℕ) : bcShape (List.replicate s1.length 1 ++ s2) (s1 ++ s2) = some (s1 ++ s2) := by
  unfold bcShape
  have hmx : max (List.replicate s1.length 1 ++ s2).length (s1 ++ s2).length = s1.length + s2.length := by
    simp only [List.length_append, List.length_replicate]; omega
  simp only [hmx]
  rw [mapM_option_eq]
  have hp1 : padOnes (s1.length + s2.length) (List.replicate s1.length 1 ++ s2) = List.replicate s1.length 1 ++ s2 := by
    simp [padOnes]
  have hp2 : padOnes (s1.length + s2.length) (s1 ++ s2) = s1 ++ s2 := by simp [padOnes]
  rw [hp1, hp2]
  clear hmx hp1 hp2
  induction s1 with
  | nil =>
    show List.Forall₂ _ (List.zip s2 s2) s2
    induction s2 with
    | nil => exact .nil
    | cons a l ih => exact .cons (by simp [bcDim]) ih
  | cons a l ih =>
    refine .cons ?_ ih
    show bcDim 1 a = some a
    unfold bcDim
    split_ifs <;> simp_all

/-- **C77**, for bitwidths shared along the first `m` dimensions of the kernel (`m = 0`: not shared): the training estimate exists,
has the shape of the kernel, and is, for every weight, the largest number of binary digits among the weights that share its
bitwidth (stated by its upper bounds). `hgrid`: the kernel is quantized. Missing: other `skip_dims`, see `C77_rows` and
`C77_rows_rectangular`. -/
theorem C77_estimate_partial (dims : List ℤ) (qk fbw : Tensor ℚ) (deg m : ℕ)
    (hshape : bwShape (qk.shape.map some) (.dims dims) = .ok (fbw.shape.map some, deg))
    (hnd : (dims.map (pyIndex qk.shape.length)).Nodup) (hm : ∀ i < qk.shape.length, Skipped qk.shape.length dims i ↔ i < m)
    (w : List ℕ → ℤ)
    (hgrid : ∀ i ∈ indices qk.shape, qk.get i = w i * (2 : ℚ) ^ (-tfRound (fbw.get (bcastIdx fbw.shape i)))) :
    ∃ t, kernelBwShared dims qk fbw = .ok t ∧ t.shape = qk.shape ∧ ∀ i ∈ indices qk.shape, ∀ c : ℕ,
      t.get i ≤ c ↔ ∀ i' ∈ indices qk.shape, bcastIdx fbw.shape i' = bcastIdx fbw.shape i → Nat.size (w i').natAbs ≤ c := by
  obtain ⟨s, q⟩ := qk
  obtain ⟨bs, v⟩ := fbw
  dsimp only at hshape hnd hm hgrid ⊢
  obtain ⟨red, m, hr1, hr2, hbs, hmn, hr3⟩ := reduce_gen (max : WithBot ℤ → WithBot ℤ → WithBot ℤ) ⊥ dims s bs
    (fun i => (bitsApproxRef (q i) 0).1) deg m hshape hnd hm
  have hs : s = s.take m ++ s.drop m := (List.take_append_drop m s).symm
  have hlt : (s.take m).length = m := by rw [List.length_take]; omega
  have hbl : bs.length = s.length := by rw [hbs, List.length_append, List.length_replicate, List.length_drop]; omega
  have hbc : bcShape red.shape bs = some bs := by
    rw [hr2, hbs]
    apply bcShape_same
    · simp
    · simp [padOnes]
  have hbc2 : bcShape bs s = some s := by
    have := bcShape_ones (s.take m) (s.drop m)
    rwa [hlt, ← hs, ← hbs] at this
  set bw : Tensor ℤ := ⟨bs, fun i => reluBits (red.bget i) (tfRound ((⟨bs, v⟩ : Tensor ℚ).bget i))⟩ with hbw
  refine ⟨⟨s, bw.bget⟩, ?_, rfl, ?_⟩
  · unfold kernelBwShared
    dsimp only
    rw [hr1]
    simp only [bind, Except.bind, Tensor.map2, hbc, Tensor.broadcastTo]
    rw [if_pos hbc2]
  · intro i hi c
    rw [hs] at hi
    obtain ⟨i1, hi1, e2, he2, rfl⟩ := indices_append.mp hi
    have hi1l : i1.length = m := by rw [indices_length hi1, hlt]
    have hidx : bcastIdx bs (i1 ++ e2) = List.replicate m 0 ++ e2 := by
      rw [hbs, bcastIdx_append_ones m _ i1 e2 hi1l, bcastIdx_self he2]
    have he1 : List.replicate m 0 ∈ indices (List.replicate m 1) := by
      rw [mem_indices]
      exact List.forall₂_iff_get.mpr ⟨by simp, fun i _ _ => by simp⟩
    have hel : (i1 ++ e2).length = bs.length := by rw [List.length_append, hi1l, indices_length he2, hbl, List.length_drop]; omega
    have hel2 : (List.replicate m 0 ++ e2).length = bs.length := by
      rw [List.length_append, List.length_replicate, indices_length he2, hbl, List.length_drop]; omega
    have hself : bcastIdx bs (List.replicate m 0 ++ e2) = List.replicate m 0 ++ e2 := by
      apply bcastIdx_self
      rw [hbs]
      exact indices_append.mpr ⟨_, he1, e2, he2, rfl⟩
    have hget : (⟨s, bw.bget⟩ : Tensor ℤ).get (i1 ++ e2) = reluBits (red.get e2) (tfRound (v (List.replicate m 0 ++ e2))) := by
      show reluBits (red.bget _) (tfRound ((⟨bs, v⟩ : Tensor ℚ).bget _)) = _
      have h1 : bw.shape = bs := rfl
      rw [h1, hel, Nat.sub_self, List.drop_zero, hidx]
      unfold Tensor.bget
      dsimp only
      rw [hel2, Nat.sub_self, List.drop_zero, hself, hr2]
      congr 2
      rw [List.length_drop, hbl, Nat.sub_sub_self hmn, List.drop_left' (by simp), bcastIdx_self he2]
    rw [hget, hidx, reluBits_le (by positivity), hr3 (fun a => a ≤ _) (fun a b => max_le_iff) bot_le e2 he2,
      sharing_iff hmn hbs he1 he2 fun i => Nat.size (w i).natAbs ≤ c]
    refine forall₂_congr fun j hj => ?_
    rw [← reluBits_le (by positivity)]
    have hjs : j ++ e2 ∈ indices s := by rw [hs]; exact indices_append.mpr ⟨j, hj, e2, he2, rfl⟩
    have hjx : bcastIdx bs (j ++ e2) = List.replicate m 0 ++ e2 := by
      rw [hbs, bcastIdx_append_ones m _ j e2 (by rw [indices_length hj, hlt]), bcastIdx_self he2]
    have := hgrid _ hjs
    rw [hjx] at this
    show reluBits ((floorLog2 |q (j ++ e2)|).map (· + 1)) _ ≤ _ ↔ _
    rw [this, reluBits_eq_size]
    exact Nat.cast_le

/-- **C77** is violated by the code for bitwidths per row of a square kernel: the largest integer bits of row `j` are added to the
fractional bits of row `i` to give the estimate for weight `(i, j)`. Here the weight 1 of the first row counts 0 bits, and the
weight 1/4 with 2 fractional bits counts 3. -/
theorem C77_rows :
    let qk : Tensor ℚ := ⟨[2, 2], fun i => if i.headD 0 = 0 then 1 else 1 / 4⟩
    let fbw : Tensor ℚ := ⟨[2, 1], fun i => if i.headD 0 = 0 then 0 else 2⟩
    bwShape (qk.shape.map some) (.dims [1]) = .ok (fbw.shape.map some, 2) ∧
    (match kernelBwShared [1] qk fbw with
      | .ok t => (indices [2, 2]).map t.get | .error _ => []) = [1, 0, 3, 1] := by
  decide +kernel

/-- **C77** is violated by the code for bitwidths per row of a kernel that is not square: the estimate raises. -/
theorem C77_rows_rectangular (a b : ℕ) (ha : 1 < a) (hab : a ≠ b) (q v : List ℕ → ℚ) :
    ∃ err, kernelBwShared [1] ⟨[a, b], q⟩ ⟨[a, 1], v⟩ = .error err := by
  have h1 : bcShape [a] [a, 1] = some [a, a] := by
    simp [bcShape, padOnes, bcDim, show ¬ 1 = a by omega, show ¬ a = 1 by omega]
  have h2 : ¬ bcShape [a, a] [a, b] = some [a, b] := by
    simp [bcShape, padOnes, bcDim, hab]
    split_ifs <;> simp <;> omega
  refine ⟨"InvalidArgumentError", ?_⟩
  unfold kernelBwShared Tensor.reduceDims
  have hk : keepDims [false, true] [a, b] = [a] := rfl
  have hmask : axisMask 2 [1] = .ok [false, true] := by decide
  simp only [List.length_cons, List.length_nil, hmask, Tensor.reduce, hk, bind, Except.bind, Tensor.map2, h1, Tensor.broadcastTo,
    if_neg h2, reduceCtorEq, if_false]

/-- the hypotheses of `C77_estimate_partial`: a 2×2 kernel with bitwidths per output channel -/
example : (match kernelBwShared [0] ⟨[2, 2], fun i => if i = [0, 1] then 3 / 2 else -1 / 4⟩ ⟨[1, 2], fun i => (i.getD 1 0 + 1 : ℕ) * 2⟩ with
    | .ok t => (indices [2, 2]).map t.get | .error _ => []) = [1, 5, 1, 5] := by decide +kernel
example : bwShape ([2, 2].map some) (.dims [0]) = .ok ([1, 2].map some, 2) ∧
    (((1 : ℤ) : ℚ) * (2 : ℚ) ^ (-tfRound ((0 + 1 : ℕ) * 2)) = 1 / 4) ∧ (((24 : ℤ) : ℚ) * (2 : ℚ) ^ (-tfRound ((1 + 1 : ℕ) * 2)) = 3 / 2) := by
  decide +kernel

end HGQ
