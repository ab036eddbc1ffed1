import Verif.Model.Tensor
import Mathlib.Algebra.BigOperators.Group.Finset.Basic
import Mathlib.Algebra.BigOperators.Intervals
import Mathlib.Data.List.Forall2

/-! Helper lemmas for `Verif/Props/Tensor.lean`. -/

namespace HGQ

theorem mem_indices {s i : List ℕ} : i ∈ indices s ↔ List.Forall₂ (· < ·) i s := by
  induction s generalizing i with
  | nil => simp [indices]
  | cons n s ih =>
    simp only [indices, List.mem_flatMap, List.mem_range, List.mem_map]
    constructor
    · rintro ⟨a, ha, j, hj, rfl⟩
      exact .cons ha (ih.mp hj)
    · intro h
      cases h with
      | cons h1 h2 => exact ⟨_, h1, _, ih.mpr h2, rfl⟩

theorem indices_length {s i : List ℕ} (h : i ∈ indices s) : i.length = s.length := (mem_indices.mp h).length_eq

theorem bcastIdx_self {s i : List ℕ} (h : i ∈ indices s) : bcastIdx s i = i := by
  replace h := mem_indices.mp h
  induction h with
  | nil => rfl
  | cons h1 _ ih =>
    rw [bcastIdx, ih]
    split
    · rename_i h'; subst h'; congr 1; omega
    · rfl

theorem mapM_option_eq {α β : Type} (f : α → Option β) (l : List α) (l' : List β) :
    l.mapM f = some l' ↔ List.Forall₂ (fun a b => f a = some b) l l' := by
  induction l generalizing l' with
  | nil => simp [eq_comm]
  | cons a l ih =>
    rw [List.mapM_cons]
    cases hf : f a with
    | none =>
      simp only [bind, Option.bind, reduceCtorEq, false_iff]
      intro h
      cases h with
      | cons h1 _ => rw [hf] at h1; cases h1
    | some b =>
      cases hm : l.mapM f with
      | none =>
        simp only [bind, Option.bind, reduceCtorEq, false_iff]
        intro h
        cases h with
        | cons _ h2 => rw [(ih _).mpr h2] at hm; cases hm
      | some m =>
        have := (ih m).mp hm
        simp only [bind, Option.bind, pure, Option.some.injEq]
        constructor
        · rintro rfl; exact .cons hf this
        · intro h
          cases h with
          | cons h1 h2 =>
            rw [hf] at h1
            have h2 := (ih _).mpr h2
            rw [hm] at h2
            rw [Option.some.inj h1, Option.some.inj h2]

/-- dimension `i` of a tensor of rank `n` is among `dims` -/
def Skipped (n : ℕ) (dims : List ℤ) (i : ℕ) : Prop := ∃ d ∈ dims, pyIndex n d = some i

theorem pyIndex_lt {n i : ℕ} {d : ℤ} (h : pyIndex n d = some i) : i < n := by
  unfold pyIndex at h
  split_ifs at h <;> simp only [Option.some.injEq] at h <;> omega

theorem skipped_lt {n i : ℕ} {dims : List ℤ} (h : Skipped n dims i) : i < n := by
  obtain ⟨d, -, hd⟩ := h
  exact pyIndex_lt hd

open Classical in
/-- the result of the loop -/
theorem bwLoop_spec (dims : List ℤ) : ∀ (s : List (Option ℕ)) (deg : ℕ),
    (∀ d ∈ dims, (pyIndex s.length d).isSome) →
    ∃ bs, bwLoop s deg dims = .ok (bs, deg * ∏ i ∈ Finset.range s.length,
        if Skipped s.length dims i then (s.getD i none).getD 1 else 1) ∧ bs.length = s.length ∧
      ∀ i < s.length, bs[i]? = if Skipped s.length dims i then some (some 1) else s[i]? := by
  induction dims with
  | nil =>
    intro s deg _
    refine ⟨s, ?_, rfl, ?_⟩
    · simp [bwLoop, Skipped]
    · intro i _; simp [Skipped]
  | cons d ds ih =>
    intro s deg hv
    obtain ⟨k, hk⟩ := Option.isSome_iff_exists.mp (hv d (.head _))
    have hkn := pyIndex_lt hk
    obtain ⟨bs, h1, h2, h3⟩ := ih (s.set k (some 1)) (deg * ((s.getD k none).getD 1)) (by
      intro e he; rw [List.length_set]; exact hv e (.tail _ he))
    rw [List.length_set] at h1 h2 h3
    have hsk : ∀ i, Skipped s.length (d :: ds) i ↔ i = k ∨ Skipped s.length ds i := by
      intro i
      constructor
      · rintro ⟨e, he, hi⟩
        rcases List.mem_cons.mp he with rfl | he
        · left; rw [hk] at hi; exact (Option.some.inj hi).symm
        · exact .inr ⟨e, he, hi⟩
      · rintro (rfl | ⟨e, he, hi⟩)
        · exact ⟨d, .head _, hk⟩
        · exact ⟨e, .tail _ he, hi⟩
    refine ⟨bs, ?_, h2, ?_⟩
    · unfold bwLoop
      rw [hk]
      dsimp only
      rw [h1, mul_assoc]
      congr 3
      have hkm : k ∈ Finset.range s.length := Finset.mem_range.mpr hkn
      rw [← Finset.mul_prod_erase _ _ hkm, ← Finset.mul_prod_erase (Finset.range s.length)
        (fun i => if Skipped s.length (d :: ds) i then (s.getD i none).getD 1 else 1) hkm]
      have e1 : (if Skipped s.length (d :: ds) k then (s.getD k none).getD 1 else 1) = (s.getD k none).getD 1 :=
        if_pos ((hsk k).mpr (.inl rfl))
      have e2 : (if Skipped s.length ds k then ((s.set k (some 1)).getD k none).getD 1 else 1) = 1 := by
        split_ifs
        · simp [List.getD_eq_getElem?_getD, List.getElem?_set, hkn]
        · rfl
      rw [e1, e2, one_mul]
      congr 1
      refine Finset.prod_congr rfl fun i hi => ?_
      have hne : i ≠ k := (Finset.mem_erase.mp hi).1
      have : (s.set k (some 1)).getD i none = s.getD i none := by
        simp [List.getD_eq_getElem?_getD, List.getElem?_set, Ne.symm hne]
      rw [this]
      simp only [hsk, hne, false_or]
    · intro i hi
      rw [h3 i hi]
      by_cases hik : i = k
      · subst hik
        rw [if_pos ((hsk i).mpr (.inl rfl))]
        split_ifs
        · rfl
        · rw [List.getElem?_set_self hi]
      · rw [List.getElem?_set_ne (Ne.symm hik)]
        simp only [hsk, hik, false_or]

theorem bwLoop_error (dims : List ℤ) : ∀ (s : List (Option ℕ)) (deg : ℕ),
    (∃ d ∈ dims, pyIndex s.length d = none) → bwLoop s deg dims = .error "IndexError" := by
  induction dims with
  | nil => rintro s deg ⟨d, hd, -⟩; cases hd
  | cons d ds ih =>
    rintro s deg ⟨e, he, hn⟩
    unfold bwLoop
    cases hd : pyIndex s.length d with
    | none => rfl
    | some i =>
      dsimp only
      apply ih
      rcases List.mem_cons.mp he with rfl | he
      · rw [hd] at hn; cases hn
      · exact ⟨e, he, by rw [List.length_set]; exact hn⟩

theorem sum_map_const {l : List ℕ} {f : ℕ → ℕ} {c : ℕ} (h : ∀ i ∈ l, f i = c) : (l.map f).sum = l.length * c := by
  induction l with
  | nil => simp
  | cons a l ih =>
    rw [List.map_cons, List.sum_cons, h a (.head _), ih fun i hi => h i (.tail _ hi), List.length_cons, Nat.succ_mul,
      Nat.add_comm]

theorem sum_range_single {n e c : ℕ} (he : e < n) : ((List.range n).map fun i => if i = e then c else 0).sum = c := by
  induction n with
  | zero => omega
  | succ n ih =>
    rw [List.range_succ, List.map_append, List.sum_append]
    by_cases h : e = n
    · subst h
      rw [sum_map_const (c := 0)]
      · simp
      · intro i hi
        rw [if_neg]
        have := List.mem_range.mp hi
        omega
    · rw [ih (by omega)]
      simp [Ne.symm h]

open Classical in
/-- how many positions use one element -/
theorem fiber_count : ∀ (s bs : List ℕ) (M : ℕ → Prop), bs.length = s.length →
    (∀ i < s.length, bs[i]? = if M i then some 1 else s[i]?) → ∀ e ∈ indices bs,
    (indices s).countP (fun i => decide (bcastIdx bs i = e)) = ∏ i ∈ Finset.range s.length, if M i then s.getD i 1 else 1 := by
  intro s
  induction s with
  | nil =>
    intro bs M hl _ e he
    have : bs = [] := List.eq_nil_of_length_eq_zero hl
    subst this
    simp only [indices, List.mem_singleton] at he
    subst he
    simp [indices, bcastIdx]
  | cons n s ih =>
    intro bs M hl hb e he
    cases bs with
    | nil => simp at hl
    | cons b bs =>
      have he' := mem_indices.mp he
      cases he' with
      | @cons e0 _ e' _ h1 h2 =>
        have hrec := ih bs (fun i => M (i + 1)) (by simpa using hl) (by
          intro i hi
          have := hb (i + 1) (by simpa using hi)
          simpa using this) e' (mem_indices.mpr h2)
        have h0 : b = if M 0 then 1 else n := by
          have := hb 0 (by simp)
          simp only [List.getElem?_cons_zero] at this
          split_ifs at this ⊢ <;> exact Option.some.inj this
        rw [List.length_cons, Finset.prod_range_succ']
        simp only [List.getD_cons_succ, List.getD_cons_zero]
        rw [← hrec]
        have hc : ∀ i, List.countP ((fun x => decide (bcastIdx (b :: bs) x = e0 :: e')) ∘ (i :: ·)) (indices s) =
            if (if b = 1 then 0 else i) = e0 then (indices s).countP (fun i => decide (bcastIdx bs i = e')) else 0 := by
          intro i
          by_cases h : (if b = 1 then 0 else i) = e0
          · rw [if_pos h]
            refine List.countP_congr fun x _ => ?_
            simp [bcastIdx, h]
          · rw [if_neg h, List.countP_eq_zero]
            intro x _
            simp [bcastIdx, h]
        have hsum : (indices (n :: s)).countP (fun i => decide (bcastIdx (b :: bs) i = e0 :: e')) =
            ((List.range n).map fun i => if (if b = 1 then 0 else i) = e0 then
              (indices s).countP (fun i => decide (bcastIdx bs i = e')) else 0).sum := by
          rw [indices, List.countP_flatMap]
          congr 1
          refine List.map_congr_left fun i _ => ?_
          rw [Function.comp_apply, List.countP_map, hc]
        rw [hsum]
        by_cases hM : M 0
        · rw [if_pos hM] at h0 ⊢
          subst h0
          have e00 : e0 = 0 := by omega
          subst e00
          simp only [if_true]
          rw [sum_map_const (fun _ _ => rfl), List.length_range, Nat.mul_comm]
        · rw [if_neg hM] at h0 ⊢
          subst h0
          rw [mul_one]
          by_cases hb1 : b = 1
          · subst hb1
            have e00 : e0 = 0 := by omega
            subst e00
            simp
          · simp only [hb1, if_false]
            exact sum_range_single h1

theorem axisMask_ok {n : ℕ} {dims : List ℤ} {mask : List Bool} (h : axisMask n dims = .ok mask) :
    mask.length = n ∧ ∀ i < n, mask[i]? = some true ↔ Skipped n dims i := by
  unfold axisMask at h
  split at h
  · cases h
  · rename_i l hl
    have hl := (mapM_option_eq _ _ _).mp hl
    split at h
    · cases h
      refine ⟨by simp, fun i hi => ?_⟩
      simp only [List.getElem?_map, List.getElem?_range hi, Option.map_some, Option.some.injEq, decide_eq_true_eq]
      clear * - hl
      induction hl with
      | nil => simp [Skipped]
      | @cons d j ds l h1 _ ih =>
        rw [List.mem_cons, ih]
        constructor
        · rintro (rfl | ⟨e, he, hi⟩)
          · exact ⟨d, .head _, h1⟩
          · exact ⟨e, .tail _ he, hi⟩
        · rintro ⟨e, he, hi⟩
          rcases List.mem_cons.mp he with rfl | he
          · left; rw [h1] at hi; exact (Option.some.inj hi).symm
          · exact .inr ⟨e, he, hi⟩
    · cases h

theorem axisMask_exists {n : ℕ} {dims : List ℤ} (hv : ∀ d ∈ dims, (pyIndex n d).isSome) (hnd : (dims.map (pyIndex n)).Nodup) :
    ∃ mask, axisMask n dims = .ok mask := by
  have : ∃ l, dims.mapM (pyIndex n) = some l ∧ dims.map (pyIndex n) = l.map some := by
    clear hnd
    induction dims with
    | nil => exact ⟨[], rfl, rfl⟩
    | cons d ds ih =>
      obtain ⟨l, h1, h2⟩ := ih fun e he => hv e (.tail _ he)
      obtain ⟨k, hk⟩ := Option.isSome_iff_exists.mp (hv d (.head _))
      exact ⟨k :: l, by rw [List.mapM_cons, hk, h1]; rfl, by rw [List.map_cons, hk, h2, List.map_cons]⟩
  obtain ⟨l, h1, h2⟩ := this
  have h3 : l.Nodup := by
    rw [h2] at hnd
    exact List.Nodup.of_map _ hnd
  exact ⟨_, by unfold axisMask; rw [h1]; dsimp only; rw [if_pos h3]⟩

/-- the mask of leading dimensions -/
theorem mask_prefix {n m : ℕ} (hm : m ≤ n) {mask : List Bool} (hl : mask.length = n) (h : ∀ i < n, mask[i]? = some true ↔ i < m) :
    mask = List.replicate m true ++ List.replicate (n - m) false := by
  apply List.ext_getElem?
  intro i
  by_cases hi : i < n
  · by_cases him : i < m
    · rw [(h i hi).mpr him, List.getElem?_append_left (by simpa using him), List.getElem?_replicate, if_pos him]
    · have : mask[i]? = some false := by
        have h1 := mt (h i hi).mp him
        have h2 : mask[i]? = some mask[i] := List.getElem?_eq_getElem (by omega)
        rw [h2] at h1 ⊢
        simpa using h1
      rw [this, List.getElem?_append_right (by simpa using him), List.getElem?_replicate, List.length_replicate,
        if_pos (by omega)]
  · rw [List.getElem?_eq_none (by omega), List.getElem?_eq_none (by simp; omega)]

theorem keepDims_prefix {α : Type} (a b : List α) :
    keepDims (List.replicate a.length true ++ List.replicate b.length false) (a ++ b) = b := by
  induction a with
  | nil =>
    rw [List.length_nil, List.replicate_zero, List.nil_append, List.nil_append]
    induction b with
    | nil => rfl
    | cons x b ih => rw [List.length_cons, List.replicate_succ, keepDims, ih]
  | cons x a ih => rw [List.length_cons, List.replicate_succ, List.cons_append, List.cons_append, keepDims, ih]

theorem bcShape_same {a b : List ℕ} (h : a.length ≤ b.length) (hp : padOnes b.length a = b) : bcShape a b = some b := by
  unfold bcShape
  have hm : max a.length b.length = b.length := max_eq_right h
  simp only [hm, hp]
  have : padOnes b.length b = b := by simp [padOnes]
  rw [this, mapM_option_eq]
  clear * -
  induction b with
  | nil => exact .nil
  | cons x b ih => exact .cons (by simp [bcDim]) ih

theorem bcastIdx_append_ones (m : ℕ) (s2 i1 i2 : List ℕ) (h : i1.length = m) :
    bcastIdx (List.replicate m 1 ++ s2) (i1 ++ i2) = List.replicate m 0 ++ bcastIdx s2 i2 := by
  induction m generalizing i1 with
  | zero =>
    have : i1 = [] := List.eq_nil_of_length_eq_zero h
    subst this; rfl
  | succ m ih =>
    cases i1 with
    | nil => simp at h
    | cons x i1 =>
      rw [List.replicate_succ, List.cons_append, List.cons_append, bcastIdx, if_pos rfl, ih i1 (by simpa using h),
        List.replicate_succ, List.cons_append]

theorem indices_append {s1 s2 i : List ℕ} : i ∈ indices (s1 ++ s2) ↔ ∃ i1 ∈ indices s1, ∃ i2 ∈ indices s2, i = i1 ++ i2 := by
  rw [mem_indices]
  constructor
  · intro h
    refine ⟨i.take s1.length, mem_indices.mpr ?_, i.drop s1.length, mem_indices.mpr ?_, (List.take_append_drop _ _).symm⟩
    · have := List.forall₂_take s1.length h
      rwa [List.take_left] at this
    · have := List.forall₂_drop s1.length h
      rwa [List.drop_left] at this
  · rintro ⟨i1, h1, i2, h2, rfl⟩
    exact List.rel_append (mem_indices.mp h1) (mem_indices.mp h2)

theorem indices_ones {m : ℕ} {i : List ℕ} (h : i ∈ indices (List.replicate m 1)) : i = List.replicate m 0 := by
  have h := mem_indices.mp h
  induction m generalizing i with
  | zero => cases h; rfl
  | succ m ih =>
    rw [List.replicate_succ] at h
    cases h with
    | cons h1 h2 =>
      rw [List.replicate_succ, ih (mem_indices.mpr h2) h2]
      congr 1
      omega

end HGQ
