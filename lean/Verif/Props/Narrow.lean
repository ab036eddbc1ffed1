import Verif.Lemmas.Narrow
import Verif.Props.ProducedType

/-!
C35: asking a quantizer for its produced type, which shrinks the widths it stores, does not change what it computes on
the values its input can take.
-/

namespace HGQ

open Spec

theorem getD_lt {α : Type} (l : List α) (d : α) {e : ℕ} (h : e < l.length) : l.getD e d = l[e] := by
  simp [List.getD, h]

theorem FPQ.kif_const (q : FPQ) (E : KBI) (hne : q.elems ≠ []) (h : ∀ e ∈ q.elems, e = E) :
    q.kif = ⟨E.keepNegative, E.integers - E.keepNegative, E.bits - E.integers⟩ := by
  have aux : ∀ g : KBI → ℤ, listMax (q.elems.map g) = g E := by
    intro g
    have := listMax_mem (l := q.elems.map g) (by simpa using hne)
    obtain ⟨e, he, h'⟩ := List.mem_map.mp this
    rw [← h', h e he]
  unfold FPQ.kif resultTKif
  simp only [aux]

/-- the element of a homogeneous quantizer, from its type -/
theorem FPQ.elem_of_kif (q : FPQ) (hh : heterogeneous q.elems = false) :
    ∀ e ∈ q.elems, e = ⟨q.kif.k, q.kif.k + q.kif.i + q.kif.f, q.kif.k + q.kif.i⟩ := by
  intro e he
  rw [C09_heterogeneous_iff] at hh
  have := q.kif_const e (List.ne_nil_of_mem he) fun e' he' => hh e' he' e he
  rw [this]
  cases e; simp only [KBI.mk.injEq, true_and]; constructor <;> ring

/-- integer bits returned by the query -/
def retI (inp o : KIF) : ℤ := if inp.i ≤ o.i ∧ inp.f > min inp.f o.f then min inp.i o.i + 1 else min inp.i o.i

theorem FPQ.produced_fst (q : FPQ) (inp : KIF) :
    (q.produced inp).1 = ⟨min inp.k q.kif.k, retI inp q.kif, min inp.f q.kif.f⟩ := rfl

theorem FPQ.produced_snd (q : FPQ) (inp : KIF) :
    (q.produced inp).2 = if min inp.k q.kif.k ≠ q.kif.k ∨ retI inp q.kif ≠ q.kif.i ∨ min inp.f q.kif.f ≠ q.kif.f then
      { q with elems := q.elems.map fun e =>
          { keepNegative := min e.keepNegative (min inp.k q.kif.k),
            bits := min e.bits (min inp.k q.kif.k + retI inp q.kif + min inp.f q.kif.f),
            integers := min e.integers (min inp.k q.kif.k + retI inp q.kif) } }
    else q := rfl

theorem shrink_int (s0 s : Bool) (inp o : KIF) (hs0 : inp.k = s0.toInt) (hs : o.k = s.toInt) :
    min o.k (min inp.k o.k) = (s0 && s).toInt ∧
    min (o.k + o.i) (min inp.k o.k + retI inp o) = (s0 && s).toInt + storedI s (s0 && s) o.i (retI inp o) ∧
    min (o.k + o.i + o.f) (min inp.k o.k + retI inp o + min inp.f o.f) =
      (s0 && s).toInt + storedI s (s0 && s) o.i (retI inp o) + min inp.f o.f := by
  obtain ⟨k0, i0, f0⟩ := inp
  obtain ⟨k, i, f⟩ := o
  simp only at hs0 hs
  subst hs0 hs
  unfold retI storedI
  cases s0 <;> cases s <;>
    simp only [toInt_false, toInt_true, Bool.and_true, Bool.and_false, Bool.true_and, Bool.false_and, if_true,
      Bool.false_eq_true, if_false] <;> split_ifs <;> omega

/-- **C35** (partial). For a homogeneous quantizer with overflow mode `SAT` or `WRAP`, at least one bit before and after,
and the four side conditions below, querying the produced type changes no output on values of the upstream type, and every
output is a value of the returned type. Missing for the full property: the excluded combinations, where the code does
change the output; each is shown by a counterexample below. -/
theorem C35_query_keeps_outputs_partial (q : FPQ) (hh : heterogeneous q.elems = false) (inp : KIF)
    (hik : inp.k = 0 ∨ inp.k = 1) (hok : q.kif.k = 0 ∨ q.kif.k = 1) (hS : q.sat = .SAT ∨ q.sat = .WRAP)
    (hw : 1 ≤ q.kif.k + q.kif.i + q.kif.f)
    (hw' : 1 ≤ (q.produced inp).1.k + (q.produced inp).1.i + (q.produced inp).1.f)
    -- a saturating quantizer does not overflow while it stores more fractional bits than its input has
    (h1 : q.sat = .SAT → inp.f < q.kif.f → inp.i ≤ q.kif.i)
    -- the input's range reaches the quantizer's resolution
    (h2 : q.kif.f < inp.f → 0 ≤ inp.i + q.kif.f)
    -- unsigned input of a signed quantizer
    (h3 : inp.k = 0 → q.kif.k = 1 → inp.i < q.kif.i ∨ inp.i = q.kif.i ∧ inp.f ≤ q.kif.f ∨
      q.sat = .SAT ∧ q.kif.f ≤ inp.f ∧ q.kif.i < inp.i)
    -- signed input of an unsigned quantizer
    (h4 : inp.k = 1 → q.kif.k = 0 → q.sat = .SAT ∨ q.kif.i ≤ inp.i)
    (x : ℚ) (hx : inp.Holds x) (e : ℕ) (he : e < q.elems.length) :
    (q.produced inp).2.call e x = q.call e x ∧ (q.produced inp).1.Holds (q.call e x) := by
  obtain ⟨s0, hs0⟩ : ∃ s0 : Bool, inp.k = s0.toInt := by
    rcases hik with h | h
    · exact ⟨false, h⟩
    · exact ⟨true, h⟩
  obtain ⟨s, hs⟩ : ∃ s : Bool, q.kif.k = s.toInt := by
    rcases hok with h | h
    · exact ⟨false, h⟩
    · exact ⟨true, h⟩
  have hmin : min inp.k q.kif.k = (s0 && s).toInt := by
    rw [hs0, hs]; cases s0 <;> cases s <;> rfl
  have hel := q.elem_of_kif hh
  have hget : q.elems.getD e ⟨0, 0, 0⟩ = ⟨q.kif.k, q.kif.k + q.kif.i + q.kif.f, q.kif.k + q.kif.i⟩ := by
    rw [getD_lt _ _ he]; exact hel _ (List.getElem_mem he)
  have hcall : q.call e x = gq s q.kif.i q.kif.f q.rnd q.sat x := by
    unfold FPQ.call; rw [hget, hs]; rfl
  rw [q.produced_fst] at hw' ⊢
  simp only [hmin] at hw'
  have core := narrow_core s0 s inp.i inp.f q.kif.i q.kif.f q.rnd q.sat x (by rw [← hs0]; exact hx) hS (by omega)
    h1 h2 (fun a b => h3 (by rw [hs0, a]; rfl) (by rw [hs, b]; rfl))
    (fun a b => h4 (by rw [hs0, a]; rfl) (by rw [hs, b]; rfl)) (min inp.f q.kif.f) (retI inp q.kif) rfl rfl hw'
  refine ⟨?_, ?_⟩
  · rw [hcall, ← core.1, q.produced_snd]
    split_ifs with hc
    · obtain ⟨e1, e2, e3⟩ := shrink_int s0 s inp q.kif hs0 hs
      have hlen : e < (q.elems.map fun e =>
          ({ keepNegative := min e.keepNegative (min inp.k q.kif.k),
             bits := min e.bits (min inp.k q.kif.k + retI inp q.kif + min inp.f q.kif.f),
             integers := min e.integers (min inp.k q.kif.k + retI inp q.kif) } : KBI)).length := by simpa using he
      unfold FPQ.call
      simp only
      rw [getD_lt _ _ hlen, List.getElem_map, hel _ (List.getElem_mem he)]
      simp only
      unfold gq KBI.apply
      rw [e1, e2, e3]
    · push Not at hc
      obtain ⟨c1, c2, c3⟩ := hc
      rw [hcall]
      have h5 : (s0 && s) = s := by
        rw [hmin, hs] at c1
        cases s0 <;> cases s <;> simp_all
      rw [c3, h5, c2]
      unfold storedI
      rw [if_pos rfl, min_self]
  · rw [hcall]
    unfold KIF.Holds
    simp only [hmin]
    exact core.2

/-- **C35**, the common case in full: upstream and quantizer of the same signedness, `WRAP`, the upstream range reaching
the resolution. -/
theorem C35_wrap_same_sign (q : FPQ) (hh : heterogeneous q.elems = false) (inp : KIF)
    (hik : inp.k = 0 ∨ inp.k = 1) (hk : q.kif.k = inp.k) (hS : q.sat = .WRAP)
    (hw : 1 ≤ q.kif.k + q.kif.i + q.kif.f) (hwi : 1 ≤ inp.k + inp.i + inp.f) (hwx : 1 ≤ inp.k + q.kif.i + inp.f)
    (hwy : 0 ≤ inp.i + q.kif.f)
    (x : ℚ) (hx : inp.Holds x) (e : ℕ) (he : e < q.elems.length) :
    (q.produced inp).2.call e x = q.call e x ∧ (q.produced inp).1.Holds (q.call e x) := by
  refine C35_query_keeps_outputs_partial q hh inp hik (by rw [hk]; exact hik) (.inr hS) hw ?_ (by rw [hS]; intro h; cases h)
    (fun _ => hwy) (by omega) (by omega) x hx e he
  rw [q.produced_fst]
  simp only [hk, min_self]
  unfold retI
  split_ifs with h <;> omega

/-- **C35**, an upstream type at least as wide in every respect: no stored width of any quantizer, heterogeneous or
not, changes. -/
theorem C35_wide_upstream_unchanged (q : FPQ) (inp : KIF) (hk : q.kif.k ≤ inp.k) (hi : q.kif.i < inp.i)
    (hf : q.kif.f ≤ inp.f) : q.produced inp = (q.kif, q) := by
  refine Prod.ext ?_ ?_
  · rw [q.produced_fst]
    unfold retI
    rw [if_neg (by omega), min_eq_right hk, min_eq_right hi.le, min_eq_right hf]
  · rw [q.produced_snd]
    unfold retI
    rw [if_neg (by omega : ¬ (inp.i ≤ q.kif.i ∧ _)), min_eq_right hk, min_eq_right hi.le, min_eq_right hf]
    simp

/-- **C35**, repeated queries: once queried, a homogeneous quantizer answers and stores the same from then on. -/
theorem C35_query_idempotent (q : FPQ) (hh : heterogeneous q.elems = false) (hne : q.elems ≠ []) (inp : KIF)
    (hik : 0 ≤ inp.k ∧ inp.k ≤ 1) (hok : 0 ≤ q.kif.k ∧ q.kif.k ≤ 1) :
    (q.produced inp).2.produced inp = q.produced inp := by
  have hel := q.elem_of_kif hh
  by_cases hc : min inp.k q.kif.k ≠ q.kif.k ∨ retI inp q.kif ≠ q.kif.i ∨ min inp.f q.kif.f ≠ q.kif.f
  · have hq' : (q.produced inp).2 = { q with elems := q.elems.map fun e =>
          { keepNegative := min e.keepNegative (min inp.k q.kif.k),
            bits := min e.bits (min inp.k q.kif.k + retI inp q.kif + min inp.f q.kif.f),
            integers := min e.integers (min inp.k q.kif.k + retI inp q.kif) } } := by
      rw [q.produced_snd, if_pos hc]
    have hfst := q.produced_fst inp
    generalize q.produced inp = P at hq' hfst ⊢
    obtain ⟨P1, P2⟩ := P
    simp only at hq' hfst
    obtain ⟨k', i', f', hk', hi', hf'⟩ : ∃ k' i' f', k' = min inp.k q.kif.k ∧ i' = retI inp q.kif ∧
      f' = min inp.f q.kif.f := ⟨_, _, _, rfl, rfl, rfl⟩
    rw [← hk', ← hi', ← hf'] at hq' hfst
    have hne' : P2.elems ≠ [] := by rw [hq']; simpa using hne
    have hE : ∀ e ∈ P2.elems, e = ⟨min q.kif.k k', min (q.kif.k + q.kif.i + q.kif.f) (k' + i' + f'),
        min (q.kif.k + q.kif.i) (k' + i')⟩ := by
      rw [hq']; intro e he
      obtain ⟨e0, he0, rfl⟩ := List.mem_map.mp he
      rw [hel e0 he0]
    have hkif := P2.kif_const _ hne' hE
    simp only at hkif
    have hr : i' ≤ q.kif.i + 1 := by rw [hi']; unfold retI; split_ifs <;> omega
    have hr2 : i' = q.kif.i + 1 → f' = q.kif.f ∧ inp.i = q.kif.i ∧ q.kif.f < inp.f := by
      rw [hi', hf']; unfold retI; split_ifs <;> omega
    have ek : min q.kif.k k' = k' := by omega
    -- what the second query sees
    obtain ⟨j, hj, ei, ef⟩ : ∃ j, (j = i' ∨ k' = q.kif.k ∧ i' = q.kif.i + 1 ∧ j = q.kif.i) ∧
        min (q.kif.k + q.kif.i) (k' + i') = k' + j ∧
        min (q.kif.k + q.kif.i + q.kif.f) (k' + i' + f') = k' + j + f' := by
      by_cases hcase : k' = q.kif.k ∧ i' = q.kif.i + 1
      · have := hr2 hcase.2
        exact ⟨q.kif.i, .inr ⟨hcase.1, hcase.2, rfl⟩, by omega, by omega⟩
      · exact ⟨i', .inl rfl, by omega, by omega⟩
    rw [ek, ei, ef] at hkif hE
    have hkif' : P2.kif = ⟨k', j, f'⟩ := by rw [hkif]; congr 1 <;> ring
    have hret : retI inp ⟨k', j, f'⟩ = i' := by
      rw [hi'] at hj ⊢
      unfold retI at hj ⊢
      simp only [hf']
      split_ifs at hj ⊢ <;> omega
    have m1 : min inp.k k' = k' := by omega
    have m2 : min inp.f f' = f' := by omega
    refine Prod.ext ?_ ?_
    · rw [P2.produced_fst, hkif', hret, hfst]; simp only [m1, m2]
    · rw [P2.produced_snd, hkif', hret]
      simp only [m1, m2]
      split_ifs
      · have : (P2.elems.map fun e => KBI.mk (min e.keepNegative k') (min e.bits (k' + i' + f'))
            (min e.integers (k' + i'))) = P2.elems := by
          conv_rhs => rw [← List.map_id P2.elems]
          apply List.map_congr_left
          intro e he
          rw [hE e he]
          simp only [id, KBI.mk.injEq]
          omega
        rw [this]
      · rfl
  · have : (q.produced inp).2 = q := by rw [q.produced_snd, if_neg hc]
    rw [this]

/-! Non-vacuity and the excluded combinations. -/

/-- values of a type, computably -/
def KIF.holdsB (t : KIF) (x : ℚ) : Bool := (x * p2 t.f).den = 1 ∧ -(t.k * p2 t.i) ≤ x ∧ x < p2 t.i

theorem KIF.holds_of_holdsB {t : KIF} {x : ℚ} (h : t.holdsB x = true) : t.Holds x := by
  simp only [KIF.holdsB, decide_eq_true_eq] at h
  refine ⟨⟨(x * p2 t.f).num, ?_⟩, h.2.1, h.2.2⟩
  have : (((x * p2 t.f).num : ℤ) : ℚ) = x * p2 t.f := by
    conv_rhs => rw [← Rat.num_div_den (x * p2 t.f), h.1]
    simp
  change x = _ * p2 (-t.f)
  rw [this, mul_assoc, ← p2_add]; simp [p2]

/-- `ufixed`/`fixed` elements, all with the same `k`, `i`, `f` -/
def FPQ.const (n : ℕ) (k i f : ℤ) (R : Rnd) (S : Sat) : FPQ := ⟨List.replicate n ⟨k, k + i + f, k + i⟩, R, S⟩

-- (1,2,5) into a signed quantizer with i = 4, f = 2: shrinks to (1,3,2) and keeps its outputs
example : ((FPQ.const 3 1 4 2 .RND .WRAP).produced ⟨1, 2, 5⟩).1 = ⟨1, 3, 2⟩ ∧
    ((FPQ.const 3 1 4 2 .RND .WRAP).produced ⟨1, 2, 5⟩).2 = FPQ.const 3 1 3 2 .RND .WRAP := by decide +kernel

example (x : ℚ) (hx : KIF.Holds ⟨1, 2, 5⟩ x) :
    (FPQ.const 3 1 3 2 .RND .WRAP).call 2 x = (FPQ.const 3 1 4 2 .RND .WRAP).call 2 x := by
  have := (C35_wrap_same_sign (FPQ.const 3 1 4 2 .RND .WRAP) (by decide +kernel) ⟨1, 2, 5⟩ (.inr rfl) (by decide +kernel)
    rfl (by decide +kernel) (by decide +kernel) (by decide +kernel) (by decide +kernel) x hx 2 (by decide +kernel)).1
  rwa [show ((FPQ.const 3 1 4 2 .RND .WRAP).produced ⟨1, 2, 5⟩).2 = FPQ.const 3 1 3 2 .RND .WRAP by decide +kernel] at this

-- saturation, unsigned upstream into a signed quantizer
example (x : ℚ) (hx : KIF.Holds ⟨0, 6, 4⟩ x) :
    (FPQ.const 2 0 3 1 .RND .SAT).call 0 x = (FPQ.const 2 1 3 1 .RND .SAT).call 0 x := by
  have := (C35_query_keeps_outputs_partial (FPQ.const 2 1 3 1 .RND .SAT) (by decide +kernel) ⟨0, 6, 4⟩ (.inl rfl)
    (by decide +kernel) (.inl rfl) (by decide +kernel) (by decide +kernel) (by decide +kernel) (by decide +kernel)
    (by decide +kernel) (by decide +kernel) x hx 0 (by decide +kernel)).1
  rwa [show ((FPQ.const 2 1 3 1 .RND .SAT).produced ⟨0, 6, 4⟩).2 = FPQ.const 2 0 3 1 .RND .SAT by decide +kernel] at this

example : (FPQ.const 2 1 3 1 .RND .SAT).produced ⟨1, 6, 4⟩ = (⟨1, 3, 1⟩, FPQ.const 2 1 3 1 .RND .SAT) :=
  C35_wide_upstream_unchanged _ _ (by decide +kernel) (by decide +kernel) (by decide +kernel)

/-- **C35** fails when the upstream range is below the quantizer's resolution: `-1/8` of type (1,-3,5) becomes `-1` under
truncation to integers before the query and `0` after it. -/
theorem C35_below_resolution_fails : ∃ (q : FPQ) (inp : KIF) (x : ℚ), heterogeneous q.elems = false ∧ inp.Holds x ∧
    q.rnd = .TRN ∧ q.sat = .WRAP ∧ q.kif = ⟨1, 4, 0⟩ ∧ (q.produced inp).2.call 0 x ≠ q.call 0 x :=
  ⟨.const 1 1 4 0 .TRN .WRAP, ⟨1, -3, 5⟩, -1/8, by decide +kernel, KIF.holds_of_holdsB (by decide +kernel), rfl, rfl,
    by decide +kernel, by decide +kernel⟩

/-- **C35** fails for an unsigned upstream type wider than a signed wrapping quantizer: `12` wraps to `-4` before the
query, to `4` after it. -/
theorem C35_unsigned_into_signed_wrap_fails : ∃ (q : FPQ) (inp : KIF) (x : ℚ), heterogeneous q.elems = false ∧
    inp.Holds x ∧ q.rnd = .TRN ∧ q.sat = .WRAP ∧ inp = ⟨0, 5, 0⟩ ∧ (q.produced inp).2.call 0 x ≠ q.call 0 x :=
  ⟨.const 1 1 3 0 .TRN .WRAP, ⟨0, 5, 0⟩, 12, by decide +kernel, KIF.holds_of_holdsB (by decide +kernel), rfl, rfl,
    rfl, by decide +kernel⟩

/-- **C35** fails for a signed upstream type narrower than an unsigned wrapping quantizer: `-1` wraps to `15` before the
query and to `3` after it. -/
theorem C35_signed_into_unsigned_wrap_fails : ∃ (q : FPQ) (inp : KIF) (x : ℚ), heterogeneous q.elems = false ∧
    inp.Holds x ∧ q.rnd = .TRN ∧ q.sat = .WRAP ∧ inp = ⟨1, 2, 0⟩ ∧
    q.call 0 x = 15 ∧ (q.produced inp).2.call 0 x = 3 :=
  ⟨.const 1 0 4 0 .TRN .WRAP, ⟨1, 2, 0⟩, -1, by decide +kernel, KIF.holds_of_holdsB (by decide +kernel), rfl, rfl,
    rfl, by decide +kernel, by decide +kernel⟩

/-- **C35** fails for `SAT` when the upstream type has more integer but fewer fractional bits: the largest value moves. -/
theorem C35_sat_fails : ∃ (q : FPQ) (inp : KIF) (x : ℚ), heterogeneous q.elems = false ∧
    inp.Holds x ∧ q.rnd = .TRN ∧ q.sat = .SAT ∧ inp = ⟨1, 5, 0⟩ ∧
    q.call 0 x = 31/4 ∧ (q.produced inp).2.call 0 x = 7 :=
  ⟨.const 1 1 3 2 .TRN .SAT, ⟨1, 5, 0⟩, 12, by decide +kernel, KIF.holds_of_holdsB (by decide +kernel), rfl, rfl,
    rfl, by decide +kernel, by decide +kernel⟩

/-- **C35** fails for `SAT_SYM`: the smallest value of the shrunk type is no longer reached. -/
theorem C35_sat_sym_fails : ∃ (q : FPQ) (inp : KIF) (x : ℚ), heterogeneous q.elems = false ∧
    inp.Holds x ∧ q.sat = .SAT_SYM ∧ q.call 0 x = -4 ∧ (q.produced inp).2.call 0 x = -3 :=
  ⟨.const 1 1 4 0 .TRN .SAT_SYM, ⟨1, 2, 0⟩, -4, by decide +kernel, KIF.holds_of_holdsB (by decide +kernel), rfl,
    by decide +kernel, by decide +kernel⟩

/-- **C35** fails for a heterogeneous quantizer: capping width and integer bits of each element by the common bounds
gives an element fractional bits it did not have. -/
theorem C35_heterogeneous_fails : ∃ (q : FPQ) (inp : KIF) (x : ℚ), heterogeneous q.elems = true ∧ inp.Holds x ∧
    q.rnd = .TRN ∧ q.sat = .WRAP ∧ q.call 0 x = 1 ∧ (q.produced inp).2.call 0 x = 3/2 :=
  ⟨⟨[⟨1, 8, 8⟩, ⟨1, 8, 1⟩], .TRN, .WRAP⟩, ⟨1, 3, 7⟩, 3/2, by decide +kernel, KIF.holds_of_holdsB (by decide +kernel), rfl,
    rfl, by decide +kernel, by decide +kernel⟩

end HGQ
