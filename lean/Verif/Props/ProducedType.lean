import Verif.Lemmas.Precision
import Verif.Props.Container

/-!
C34: derived output types of passive and arithmetic layers contain every output.
-/

namespace HGQ

open Spec

/-- `x` is a value of the type `t` -/
def KIF.Holds (t : KIF) (x : ℚ) : Prop := IsKif t.k t.i t.f x

theorem sum_grid (f : ℤ) (l : List ℚ) (h : ∀ x ∈ l, ∃ n : ℤ, x = n * p2 (-f)) : ∃ n : ℤ, l.sum = n * p2 (-f) := by
  induction l with
  | nil => exact ⟨0, by simp⟩
  | cons a l ih =>
    rw [List.sum_cons]
    exact grid_add (h a (by simp)) (ih fun x hx => h x (by simp [hx]))

theorem sum_ge (l : List ℚ) (b : ℚ) (h : ∀ x ∈ l, b ≤ x) : l.length * b ≤ l.sum := by
  induction l with
  | nil => simp
  | cons a l ih =>
    rw [List.sum_cons, List.length_cons]
    have := h a (by simp)
    have := ih fun x hx => h x (by simp [hx])
    push_cast; linarith

theorem sum_le (l : List ℚ) (b : ℚ) (h : ∀ x ∈ l, x ≤ b) : l.sum ≤ l.length * b := by
  induction l with
  | nil => simp
  | cons a l ih =>
    rw [List.sum_cons, List.length_cons]
    have := h a (by simp)
    have := ih fun x hx => h x (by simp [hx])
    push_cast; linarith

theorem sum_lt (l : List ℚ) (hne : l ≠ []) (b : ℚ) (h : ∀ x ∈ l, x < b) : l.sum < l.length * b := by
  cases l with
  | nil => exact absurd rfl hne
  | cons a l =>
    rw [List.sum_cons, List.length_cons]
    have := h a (by simp)
    have := sum_le l b fun x hx => (h x (by simp [hx])).le
    push_cast; linarith

theorem sum_kif {k i f : ℤ} (hk : 0 ≤ k) (l : List ℚ) (m : ℕ) (hl : l.length ≤ 2 ^ m) (h : ∀ x ∈ l, IsKif k i f x) :
    IsKif k (i + m) f l.sum := by
  have hp := p2_pos i
  have hkq : (0 : ℚ) ≤ k := by exact_mod_cast hk
  have e : p2 (i + m) = 2 ^ m * p2 i := by rw [p2_add, p2_natCast]; push_cast; ring
  have hlq : (l.length : ℚ) ≤ 2 ^ m := by exact_mod_cast hl
  refine ⟨sum_grid f l fun x hx => (h x hx).1, ?_, ?_⟩
  · change -((k : ℚ) * p2 (i + m)) ≤ _
    have h1 := sum_ge l (-(k * p2 i)) fun x hx => (h x hx).2.1
    rw [e]
    have : (l.length : ℚ) * (k * p2 i) ≤ 2 ^ m * (k * p2 i) :=
      mul_le_mul_of_nonneg_right hlq (mul_nonneg hkq hp.le)
    linarith
  · change _ < p2 (i + m)
    rw [e]
    rcases eq_or_ne l [] with rfl | hne
    · simp; exact hp
    · have h1 := sum_lt l hne (p2 i) fun x hx => (h x hx).2.2
      have : (l.length : ℚ) * p2 i ≤ 2 ^ m * p2 i := mul_le_mul_of_nonneg_right hlq hp.le
      linarith

theorem kifMax_le {ts : List KIF} {t : KIF} (ht : t ∈ ts) :
    t.k ≤ (kifMax ts).k ∧ t.i ≤ (kifMax ts).i ∧ t.f ≤ (kifMax ts).f :=
  ⟨le_listMax (List.mem_map.mpr ⟨t, ht, rfl⟩), le_listMax (List.mem_map.mpr ⟨t, ht, rfl⟩),
    le_listMax (List.mem_map.mpr ⟨t, ht, rfl⟩)⟩

theorem holds_max {ts : List KIF} {t : KIF} (ht : t ∈ ts) (hk : 0 ≤ t.k) {x : ℚ} (h : t.Holds x) :
    (kifMax ts).Holds x :=
  let ⟨h1, h2, h3⟩ := kifMax_le ht
  isKif_mono h hk h1 h2 h3

/-- C34, concatenation (and the other layers that only move values: reshape, flatten, permute, which keep the type
of their input): a value of any input is a value of the derived type. -/
theorem C34_concatenate (ts : List KIF) (t : KIF) (ht : t ∈ ts) (hk : 0 ≤ t.k) (x : ℚ) (h : t.Holds x) :
    (concatKif ts).Holds x := holds_max ht hk h

/-- C34, max pooling (keeps the type of its input): the maximum of a non-empty window of values is a value of the
type. -/
theorem C34_max_pool (t : KIF) (x : ℚ) (w : List ℚ) (hx : t.Holds x) (h : ∀ y ∈ w, t.Holds y) :
    t.Holds (w.foldr max x) := by
  induction w with
  | nil => exact hx
  | cons a w ih =>
    rw [List.foldr_cons]
    rcases max_choice a (w.foldr max x) with e | e <;> rw [e]
    · exact h a (by simp)
    · exact ih fun y hy => h y (by simp [hy])

/-- C34, `Add` with any number of inputs of any types. -/
theorem C34_add (ts : List KIF) (xs : List ℚ) (h : List.Forall₂ KIF.Holds ts xs) (hk : ∀ t ∈ ts, 0 ≤ t.k) :
    (addKif ts).Holds xs.sum := by
  have hlen := h.length_eq
  have hmem : ∀ x ∈ xs, (kifMax ts).Holds x := by
    have : ∀ (ts' : List KIF) (xs : List ℚ), List.Forall₂ KIF.Holds ts' xs → (∀ t ∈ ts', t ∈ ts) →
        ∀ x ∈ xs, (kifMax ts).Holds x := by
      intro ts' xs h
      induction h with
      | nil => simp
      | cons h1 _ ih =>
        intro hs x hx
        rcases List.mem_cons.mp hx with rfl | hx
        · exact holds_max (hs _ (by simp)) (hk _ (hs _ (by simp))) h1
        · exact ih (fun t ht => hs t (by simp [ht])) x hx
    exact this ts xs h fun t ht => ht
  have hkm : 0 ≤ (kifMax ts).k := by
    cases ts with
    | nil => simp [kifMax, listMax]
    | cons t ts =>
      have := hk t (by simp)
      exact this.trans (kifMax_le (by simp)).1
  exact sum_kif hkm xs (Nat.clog 2 ts.length) (by rw [← hlen]; exact Nat.le_pow_clog (by norm_num) _) hmem

example : List.Forall₂ KIF.Holds [⟨1, 3, 2⟩, ⟨0, 5, 1⟩, ⟨1, 0, 6⟩] [-31 / 4, 63 / 2, -1] ∧
    addKif [⟨1, 3, 2⟩, ⟨0, 5, 1⟩, ⟨1, 0, 6⟩] = ⟨1, 7, 6⟩ := by
  refine ⟨.cons ⟨⟨-31, ?_⟩, ?_, ?_⟩ (.cons ⟨⟨63, ?_⟩, ?_, ?_⟩ (.cons ⟨⟨-64, ?_⟩, ?_, ?_⟩ .nil)), by decide +kernel⟩ <;>
    norm_num [zpow_neg]

/-- C34, `Subtract`, the part that holds: at least one of the two inputs is signed. Missing: both unsigned, where the
rule is unsound (`C34_subtract_unsigned_fails`). -/
theorem C34_subtract_partial (a b : KIF) (x y : ℚ) (ha : a.Holds x) (hb : b.Holds y) (hak : a.k = 0 ∨ a.k = 1)
    (hbk : b.k = 0 ∨ b.k = 1) (hs : a.k = 1 ∨ b.k = 1) : (addKif [a, b]).Holds (x - y) := by
  have hm : (kifMax [a, b]).k = 1 := by
    have : (kifMax [a, b]).k = max a.k b.k := rfl
    rw [this]; omega
  have hx : (kifMax [a, b]).Holds x := holds_max (by simp) (by omega) ha
  have hy : (kifMax [a, b]).Holds y := holds_max (by simp) (by omega) hb
  have hr : addKif [a, b] = ⟨(kifMax [a, b]).k, (kifMax [a, b]).i + 1, (kifMax [a, b]).f⟩ := rfl
  unfold KIF.Holds at *
  rw [hr]
  generalize kifMax [a, b] = m at *
  rw [hm] at *
  have e : (2 : ℚ) ^ (m.i + 1) = 2 * 2 ^ m.i := p2_succ m.i
  obtain ⟨g1, l1, u1⟩ := hx
  obtain ⟨g2, l2, u2⟩ := hy
  obtain ⟨n1, hn1⟩ := g1
  obtain ⟨n2, hn2⟩ := g2
  have hlt : x - y < 2 * 2 ^ m.i := by push_cast at *; linarith
  refine ⟨⟨n1 - n2, by rw [hn1, hn2]; push_cast; ring⟩, ?_, by rw [e]; exact hlt⟩
  rw [e]; push_cast at *; linarith

/-- Negation of C34 for `Subtract` with unsigned inputs: `0 - 1` is negative, the derived type is unsigned. -/
theorem C34_subtract_unsigned_fails : (⟨0, 1, 0⟩ : KIF).Holds 0 ∧ (⟨0, 1, 0⟩ : KIF).Holds 1 ∧
    ¬ (addKif [⟨0, 1, 0⟩, ⟨0, 1, 0⟩]).Holds (0 - 1) := by
  refine ⟨⟨⟨0, by norm_num⟩, by norm_num, by norm_num⟩, ⟨⟨1, by norm_num⟩, by norm_num, by norm_num⟩, ?_⟩
  rintro ⟨-, h, -⟩
  have e : (addKif [⟨0, 1, 0⟩, ⟨0, 1, 0⟩]).k = 0 := rfl
  rw [e] at h; norm_num at h

/-- C34, average pooling, the part that holds: full windows whose size is a power of two. Missing: other window sizes,
where the average has no finite binary expansion (`C34_avg_pool_fails`). -/
theorem C34_avg_pool_partial (t : KIF) (hk : 0 ≤ t.k) (m : ℕ) (w : List ℚ) (hl : w.length = 2 ^ m)
    (h : ∀ x ∈ w, t.Holds x) : (avgPoolKif t (2 ^ m)).Holds (w.sum / w.length) := by
  have hc : Nat.clog 2 (2 ^ m) = m := Nat.clog_pow 2 m (by norm_num)
  have hs := sum_kif hk w m hl.le h
  obtain ⟨⟨n, hn⟩, h1, h2⟩ := hs
  have hpow : ((2 ^ m : ℕ) : ℚ) = p2 m := by rw [p2_natCast]; push_cast; rfl
  have hpm := p2_pos (m : ℤ)
  have e : (2 : ℚ) ^ (t.i + m) = p2 t.i * p2 m := p2_add _ _
  rw [e] at h1 h2
  refine ⟨⟨n, ?_⟩, ?_, ?_⟩
  · rw [hl, hpow, hn]
    simp only [avgPoolKif, hc]
    rw [div_p2, mul_assoc]
    congr 1
    change p2 (-t.f) * p2 (-(m : ℤ)) = p2 (-(t.f + m))
    rw [← p2_add]; congr 1; ring
  · rw [hl, hpow, le_div_iff₀ hpm]; change -((t.k : ℚ) * p2 t.i) * p2 m ≤ _; linarith
  · rw [hl, hpow, div_lt_iff₀ hpm]; exact h2

example : (avgPoolKif ⟨1, 2, 1⟩ (2 ^ 2)) = ⟨1, 2, 3⟩ ∧ ([-4, 7 / 2, 1 / 2, -1 / 2] : List ℚ).sum / 4 = -1 / 8 := by
  decide +kernel

/-- Negation of C34 for average pooling over 3 values: `1/3` is in no fixed-point type. -/
theorem C34_avg_pool_fails : (∀ x ∈ ([0, 0, 1] : List ℚ), (⟨0, 1, 0⟩ : KIF).Holds x) ∧
    ¬ (avgPoolKif ⟨0, 1, 0⟩ 3).Holds (([0, 0, 1] : List ℚ).sum / 3) := by
  constructor
  · intro x hx
    simp only [List.mem_cons, List.not_mem_nil, or_false] at hx
    rcases hx with rfl | rfl | rfl
    · exact ⟨⟨0, by norm_num⟩, by norm_num, by norm_num⟩
    · exact ⟨⟨0, by norm_num⟩, by norm_num, by norm_num⟩
    · exact ⟨⟨1, by norm_num⟩, by norm_num, by norm_num⟩
  · rintro ⟨⟨n, hn⟩, -, -⟩
    have e : (avgPoolKif ⟨0, 1, 0⟩ 3).f = 2 := by decide +kernel
    rw [e] at hn
    norm_num at hn
    have h4 : (4 : ℚ) = 3 * n := by linarith
    have : (4 : ℤ) = 3 * n := by exact_mod_cast h4
    omega

/-! ### products -/

theorem mul_grid {f g : ℤ} {x y : ℚ} (hx : ∃ n : ℤ, x = n * p2 (-f)) (hy : ∃ n : ℤ, y = n * p2 (-g)) :
    ∃ n : ℤ, x * y = n * p2 (-(f + g)) := by
  obtain ⟨n, rfl⟩ := hx; obtain ⟨m, rfl⟩ := hy
  refine ⟨n * m, ?_⟩
  have : p2 (-(f + g)) = p2 (-f) * p2 (-g) := by rw [← p2_add]; congr 1; ring
  rw [this]; push_cast; ring

/-- a product of two values lies in the product type, unless both are signed, when the upper bound may be attained -/
theorem mul_bounds {a b : KIF} {x y : ℚ} (ha : a.Holds x) (hb : b.Holds y) (hak : a.k = 0 ∨ a.k = 1)
    (hbk : b.k = 0 ∨ b.k = 1) :
    -(((max a.k b.k : ℤ) : ℚ) * p2 (a.i + b.i)) ≤ x * y ∧ x * y ≤ p2 (a.i + b.i) ∧
      (a.k = 0 ∨ b.k = 0 → x * y < p2 (a.i + b.i)) := by
  obtain ⟨-, l1, u1⟩ := ha
  obtain ⟨-, l2, u2⟩ := hb
  have hA := p2_pos a.i
  have hB := p2_pos b.i
  change _ < p2 a.i at u1
  change _ < p2 b.i at u2
  change -(_ * p2 a.i) ≤ _ at l1
  change -(_ * p2 b.i) ≤ _ at l2
  rw [p2_add]
  generalize p2 a.i = A at *
  generalize p2 b.i = B at *
  rcases hak with ha | ha <;> rcases hbk with hb | hb <;> simp only [ha, hb] at * <;> push_cast at * <;>
    simp only [zero_mul, neg_zero, one_mul] at *
  · refine ⟨?_, ?_, fun _ => ?_⟩
    · simpa using mul_nonneg l1 l2
    · nlinarith
    · nlinarith
  · have h1 : x * y < A * B := by
      rcases le_or_gt y 0 with h | h
      · nlinarith
      · nlinarith
    refine ⟨?_, h1.le, fun _ => h1⟩
    norm_num; nlinarith
  · have h1 : x * y < A * B := by
      rcases le_or_gt x 0 with h | h
      · nlinarith
      · nlinarith
    refine ⟨?_, h1.le, fun _ => h1⟩
    norm_num; nlinarith
  · refine ⟨?_, ?_, by simp⟩
    · norm_num
      rcases le_or_gt x 0 with hx | hx <;> rcases le_or_gt y 0 with hy | hy <;> nlinarith
    · rcases le_or_gt x 0 with hx | hx <;> rcases le_or_gt y 0 with hy | hy <;> nlinarith

/-- C34, `Dot`, the part that holds: vectors of length 1, not both signed. Missing: longer vectors (the rule ignores
the length, `C34_dot_length_fails`) and the product of two most negative values (`C34_dot_signed_fails`). -/
theorem C34_dot_partial (a b : KIF) (x y : ℚ) (ha : a.Holds x) (hb : b.Holds y) (hak : a.k = 0 ∨ a.k = 1)
    (hbk : b.k = 0 ∨ b.k = 1) (hs : a.k = 0 ∨ b.k = 0) : (dotKif a b).Holds ([x * y].sum) := by
  obtain ⟨h1, -, h3⟩ := mul_bounds ha hb hak hbk
  simp only [List.sum_cons, List.sum_nil, add_zero]
  exact ⟨mul_grid ha.1 hb.1, h1, h3 hs⟩

/-- Negation of C34 for `Dot` of vectors of length 4 with entries 1 of type `(0,1,0)`: the derived type holds values
below 4, the result is 4. -/
theorem C34_dot_length_fails : (⟨0, 1, 0⟩ : KIF).Holds 1 ∧
    ¬ (dotKif ⟨0, 1, 0⟩ ⟨0, 1, 0⟩).Holds (([1 * 1, 1 * 1, 1 * 1, 1 * 1] : List ℚ).sum) := by
  refine ⟨⟨⟨1, by norm_num⟩, by norm_num, by norm_num⟩, ?_⟩
  rintro ⟨-, -, h⟩
  have e : (dotKif ⟨0, 1, 0⟩ ⟨0, 1, 0⟩).i = 2 := rfl
  rw [e] at h; norm_num at h

/-- Negation of C34 for `Dot` of two signed values: `(-1)*(-1) = 1` is outside `[-1, 1)`. -/
theorem C34_dot_signed_fails : (⟨1, 0, 0⟩ : KIF).Holds (-1) ∧
    ¬ (dotKif ⟨1, 0, 0⟩ ⟨1, 0, 0⟩).Holds (([(-1) * (-1)] : List ℚ).sum) := by
  refine ⟨⟨⟨-1, by norm_num⟩, by norm_num, by norm_num⟩, ?_⟩
  rintro ⟨-, -, h⟩
  have e : (dotKif ⟨1, 0, 0⟩ ⟨1, 0, 0⟩).i = 0 := rfl
  rw [e] at h; norm_num at h

theorem arrContainer_k (arr : List ℚ) : (arrContainer arr).k = 0 ∨ (arrContainer arr).k = 1 := by
  unfold arrContainer
  split_ifs <;> simp

/-- C34, `Dense`/`Conv` without bias, the part that holds. One output is the sum of `x*w` over `terms`: inputs of the
input type times kernel entries, at most `kernel.size / units` of them. It lies in the derived type if inputs or kernel
are unsigned, or if the number of terms is below the next power of two. Missing: signed inputs and signed kernel with a
power-of-two number of terms (`C34_linear_signed_fails`), and any bias (`C34_linear_bias_fails`). -/
theorem C34_linear_partial (inp : KIF) (kernel : List ℚ) (units : ℕ) (terms : List (ℚ × ℚ))
    (hk : inp.k = 0 ∨ inp.k = 1) (hgrid : ∀ w ∈ kernel, ∃ n : ℤ, w = n * (2 : ℚ) ^ (-32 : ℤ))
    (hx : ∀ p ∈ terms, inp.Holds p.1) (hw : ∀ p ∈ terms, p.2 ∈ kernel) (hn : terms.length ≤ kernel.length / units)
    (hs : inp.k = 0 ∨ (∀ w ∈ kernel, 0 ≤ w) ∨ terms.length < 2 ^ Nat.clog 2 (kernel.length / units)) :
    (linearKif inp kernel [] units).Holds ((terms.map fun p => p.1 * p.2).sum) := by
  set w := arrContainer kernel with hwd
  have hwk : w.k = 0 ∨ w.k = 1 := arrContainer_k kernel
  have hwh : ∀ p ∈ terms, w.Holds p.2 := fun p hp => C30_sound kernel hgrid p.2 (hw p hp)
  have hk' : (linearKif inp kernel [] units).k = max inp.k w.k := by
    have : (linearKif inp kernel [] units).k = if inp.k ≠ 0 ∨ w.k ≠ 0 ∨ ([] : List ℚ).any (fun b => decide (b < 0)) then 1 else 0 := rfl
    rw [this]
    rcases hk with h | h <;> rcases hwk with h' | h' <;> simp [h, h']
  have hi' : (linearKif inp kernel [] units).i = inp.i + w.i + Nat.clog 2 (kernel.length / units) := rfl
  have hf' : (linearKif inp kernel [] units).f = inp.f + w.f := rfl
  unfold KIF.Holds
  rw [hk', hi', hf']
  set m := Nat.clog 2 (kernel.length / units) with hmd
  have hlen : terms.length ≤ 2 ^ m := hn.trans (Nat.le_pow_clog (by norm_num) _)
  have hb := fun p hp => mul_bounds (hx p hp) (hwh p hp) hk hwk
  have hg : ∀ p ∈ terms, ∃ n : ℤ, p.1 * p.2 = n * p2 (-(inp.f + w.f)) := fun p hp => mul_grid (hx p hp).1 (hwh p hp).1
  have hmax0 : 0 ≤ max inp.k w.k := by omega
  by_cases hstrict : inp.k = 0 ∨ w.k = 0
  · refine sum_kif hmax0 _ m (by simpa using hlen) ?_
    intro y hy
    obtain ⟨p, hp, rfl⟩ := List.mem_map.mp hy
    exact ⟨hg p hp, (hb p hp).1, (hb p hp).2.2 hstrict⟩
  · have hlt : terms.length < 2 ^ m := by
      rcases hs with h | h | h
      · exact absurd (.inl h) hstrict
      · exfalso
        apply hstrict; right
        have h0 : (kernel.any fun a => decide (a < 0)) = false := by
          rw [List.any_eq_false]
          intro a ha
          have := h a ha
          simp [not_lt.mpr this]
        rw [hwd]; unfold arrContainer
        rw [h0]
        split_ifs with h1
        · rfl
        · simp at *
        · simp
      · exact h
    have hP := p2_pos (inp.i + w.i)
    have e : p2 (inp.i + w.i + m) = 2 ^ m * p2 (inp.i + w.i) := by rw [p2_add _ (m : ℤ), p2_natCast]; push_cast; ring
    refine ⟨sum_grid _ _ ?_, ?_, ?_⟩
    · intro y hy
      obtain ⟨p, hp, rfl⟩ := List.mem_map.mp hy
      exact hg p hp
    · change -(((max inp.k w.k : ℤ) : ℚ) * p2 (inp.i + w.i + m)) ≤ _
      have h1 := sum_ge (terms.map fun p => p.1 * p.2) (-(((max inp.k w.k : ℤ) : ℚ) * p2 (inp.i + w.i))) (by
        intro y hy
        obtain ⟨p, hp, rfl⟩ := List.mem_map.mp hy
        exact (hb p hp).1)
      rw [List.length_map] at h1
      have hlq : (terms.length : ℚ) ≤ 2 ^ m := by exact_mod_cast hlen
      have hmq : (0 : ℚ) ≤ ((max inp.k w.k : ℤ) : ℚ) := by exact_mod_cast hmax0
      have := mul_le_mul_of_nonneg_right hlq (mul_nonneg hmq hP.le)
      rw [e]; linarith
    · change _ < p2 (inp.i + w.i + m)
      have h1 := sum_le (terms.map fun p => p.1 * p.2) (p2 (inp.i + w.i)) (by
        intro y hy
        obtain ⟨p, hp, rfl⟩ := List.mem_map.mp hy
        exact (hb p hp).2.1)
      rw [List.length_map] at h1
      have hlq : (terms.length : ℚ) + 1 ≤ 2 ^ m := by exact_mod_cast hlt
      have := mul_le_mul_of_nonneg_right hlq hP.le
      rw [e]; linarith

example : linearKif ⟨1, 2, 3⟩ [1 / 2, -3 / 4, 5, 1, 0, -2] [] 2 = ⟨1, 7, 5⟩ ∧
    ([(-4, 5), (31 / 8, -3 / 4), (1, 1)] : List (ℚ × ℚ)).length < 2 ^ Nat.clog 2 (6 / 2) := by decide +kernel

/-- Negation of C34 for a dense layer with signed inputs and kernel: `(-1)*(-1) = 1` is outside the type `[-1, 1)`. -/
theorem C34_linear_signed_fails : (⟨1, 0, 0⟩ : KIF).Holds (-1) ∧ linearKif ⟨1, 0, 0⟩ [-1] [] 1 = ⟨1, 0, 0⟩ ∧
    ¬ (linearKif ⟨1, 0, 0⟩ [-1] [] 1).Holds ((-1) * (-1)) := by
  have e : linearKif ⟨1, 0, 0⟩ [-1] [] 1 = ⟨1, 0, 0⟩ := by decide +kernel
  refine ⟨⟨⟨-1, by norm_num⟩, by norm_num, by norm_num⟩, e, ?_⟩
  rw [e]
  rintro ⟨-, -, h⟩
  norm_num at h

/-- Negation of C34 for a dense layer with bias: the magnitude of the bias is ignored. `1*1 + 5 = 6` is not below 4. -/
theorem C34_linear_bias_fails : (⟨0, 1, 0⟩ : KIF).Holds 1 ∧ linearKif ⟨0, 1, 0⟩ [1] [5] 1 = ⟨0, 2, 0⟩ ∧
    ¬ (linearKif ⟨0, 1, 0⟩ [1] [5] 1).Holds (1 * 1 + 5) := by
  have e : linearKif ⟨0, 1, 0⟩ [1] [5] 1 = ⟨0, 2, 0⟩ := by decide +kernel
  refine ⟨⟨⟨1, by norm_num⟩, by norm_num, by norm_num⟩, e, ?_⟩
  rw [e]
  rintro ⟨-, -, h⟩
  norm_num at h

end HGQ
