import Verif.Props.Narrow2

/-!
C35 for quantizers with elements that are zero everywhere (pruned), and for quantizers whose type fits into the produced one.
-/

namespace HGQ

open Spec

/-- the element of a quantizer that is 0 on everything recorded: `bitsExact` gives it the type (0, 0, 0) -/
def KBI.pruned : KBI := ⟨0, 0, 0⟩

theorem KBI.apply_zero_bits {E : KBI} (hk : E.keepNegative = 0 ∨ E.keepNegative = 1) (hb : E.bits = 0) (R : Rnd) (S : Sat) (x : ℚ) :
    E.apply R S x = 0 := by
  obtain ⟨s, hs⟩ := bool_of_k hk
  rw [E.apply_eq_gq s hs]
  have h := gq_kif s (i := E.integers - E.keepNegative) (f := E.bits - E.integers) (by rw [← hs]; omega) R S x
  obtain ⟨⟨n, hn⟩, h2, h3⟩ := h
  rw [hn] at h2 h3 ⊢
  have hp : (2 : ℚ) ^ (E.integers - E.keepNegative) = (2 : ℚ) ^ (-s.toInt) * (2 : ℚ) ^ (-(E.bits - E.integers)) := by
    rw [← zpow_add₀ (by norm_num)]; congr 1; omega
  rw [hp] at h2 h3
  have hpos := p2_pos (-(E.bits - E.integers))
  change 0 < (2 : ℚ) ^ (-(E.bits - E.integers)) at hpos
  generalize (2 : ℚ) ^ (-(E.bits - E.integers)) = P at *
  have hn0 : n = 0 := by
    rcases toInt_cases s with h | h <;> rw [h] at h2 h3
    · have a1 : (0 : ℚ) ≤ n := by
        by_contra hc
        push Not at hc
        have := mul_neg_of_neg_of_pos hc hpos
        simp at h2; linarith
      have a2 : (n : ℚ) < 1 := by
        have : (n : ℚ) * P < 1 * P := by simpa using h3
        exact lt_of_mul_lt_mul_right this hpos.le
      have : (0 : ℤ) ≤ n := by exact_mod_cast a1
      have : n < 1 := by exact_mod_cast a2
      omega
    · have e2 : (2 : ℚ) ^ (-(1 : ℤ)) = 1 / 2 := by norm_num
      rw [e2] at h2 h3
      have a1 : (-(1 / 2) : ℚ) ≤ n := by
        have : (-(1 / 2) : ℚ) * P ≤ n * P := by push_cast at h2; linarith
        exact le_of_mul_le_mul_right this hpos
      have a2 : (n : ℚ) < 1 / 2 := lt_of_mul_lt_mul_right h3 hpos.le
      have : (-1 : ℚ) < n := by linarith
      have : (-1 : ℤ) < n := by exact_mod_cast this
      have : (n : ℚ) < 1 := by linarith
      have : n < 1 := by exact_mod_cast this
      omega
  rw [hn0]; simp

/-- **C35**, any quantizer: if the produced type has at least the bits of the quantizer's own type, the query changes nothing. -/
theorem C35_covered_unchanged (q : FPQ) (inp : KIF) (hk : q.kif.k ≤ (q.produced inp).1.k) (hi : q.kif.i ≤ (q.produced inp).1.i)
    (hf : q.kif.f ≤ (q.produced inp).1.f) : (q.produced inp).2 = q := by
  rw [q.produced_fst] at hk hi hf
  simp only at hk hi hf
  rw [q.produced_snd]
  split_ifs
  · have : (q.elems.map fun e => KBI.mk (min e.keepNegative (min inp.k q.kif.k))
        (min e.bits (min inp.k q.kif.k + retI inp q.kif + min inp.f q.kif.f))
        (min e.integers (min inp.k q.kif.k + retI inp q.kif))) = q.elems := by
      conv_rhs => rw [← List.map_id q.elems]
      apply List.map_congr_left
      intro e he
      obtain ⟨l1, l2, l3⟩ := q.elem_le he
      generalize retI inp q.kif = Pi at *
      cases e
      simp only at l1 l2 l3
      simp only [id, KBI.mk.injEq]
      omega
    rw [this]
  · rfl

-- the produced type has one integer bit more than the quantizer's own
example : let q : FPQ := ⟨[⟨1, 5, 3⟩, ⟨0, 3, 2⟩], .RND, .WRAP⟩
    let inp : KIF := ⟨1, 2, 6⟩
    (q.produced inp).1 = ⟨1, 3, 2⟩ ∧ q.kif = ⟨1, 2, 2⟩ := by decide +kernel

/-- Condition on a wrapping quantizer, element by element: it is pruned, or its sign and integer bits fit into the produced
type. -/
def FPQ.ElemsFit (q : FPQ) (inp : KIF) : Prop :=
  q.sat = .WRAP ∧ 1 ≤ (q.produced inp).1.k + (q.produced inp).1.i + (q.produced inp).1.f ∧
  ∀ e ∈ q.elems, e = KBI.pruned ∨
    e.keepNegative ≤ (q.produced inp).1.k ∧ e.integers - e.keepNegative ≤ (q.produced inp).1.i

/-- **C35**, heterogeneous wrapping quantizers, element by element. If the sign and integer bits of every element that is not pruned
fit into the produced type, the query changes no output on values of the upstream type, and every output is a value of the
returned type. -/
theorem C35_elementwise_wrap (q : FPQ) (inp : KIF)
    (hel : ∀ e ∈ q.elems, (e.keepNegative = 0 ∨ e.keepNegative = 1) ∧ 0 ≤ e.bits) (hik : inp.k = 0 ∨ inp.k = 1)
    (hf : q.ElemsFit inp) (x : ℚ) (hx : inp.Holds x) (e : ℕ) (he : e < q.elems.length) :
    (q.produced inp).2.call e x = q.call e x ∧ (q.produced inp).1.Holds (q.call e x) := by
  obtain ⟨hS, hw, hall⟩ := hf
  have hm : q.elems[e] ∈ q.elems := List.getElem_mem he
  have hE := hall _ hm
  obtain ⟨hek, heb⟩ := hel _ hm
  obtain ⟨l1, l2, l3⟩ := q.elem_le hm
  have hkq : 0 ≤ q.kif.k := by omega
  rw [q.produced_fst] at hw hE ⊢
  simp only at hw hE
  -- the state after the query, whether or not the condition triggered
  have hcall : (q.produced inp).2.call e x = KBI.apply
      { keepNegative := min q.elems[e].keepNegative (min inp.k q.kif.k),
        bits := min q.elems[e].bits (min inp.k q.kif.k + retI inp q.kif + min inp.f q.kif.f),
        integers := min q.elems[e].integers (min inp.k q.kif.k + retI inp q.kif) } q.rnd q.sat x := by
    rw [q.produced_snd]
    split_ifs with hc
    · unfold FPQ.call
      rw [getD_lt _ _ (by simpa using he)]
      simp only [List.getElem_map]
    · push Not at hc
      rw [hc.1, hc.2.1, hc.2.2, min_eq_left l1, min_eq_left (by omega), min_eq_left (by omega)]
      unfold FPQ.call
      rw [getD_lt _ _ he]
  rw [hcall]
  unfold FPQ.call
  rw [getD_lt _ _ he]
  generalize q.elems[e] = E at *
  generalize hPk : min inp.k q.kif.k = Pk at *
  generalize hPi : retI inp q.kif = Pi at *
  generalize hPf : min inp.f q.kif.f = Pf at *
  have hg : ∃ n : ℤ, x = n * p2 (-inp.f) := hx.1
  rcases hE with rfl | ⟨h1, h2⟩
  · rw [KBI.apply_zero_bits (E := KBI.pruned) (.inl rfl) rfl, KBI.apply_zero_bits]
    · refine ⟨rfl, ⟨⟨0, by simp⟩, ?_, (p2_pos _)⟩⟩
      have := p2_pos Pi
      have hk0 : (0 : ℚ) ≤ (Pk : ℚ) := by exact_mod_cast (by omega : (0 : ℤ) ≤ Pk)
      have := mul_nonneg hk0 this.le
      show -((Pk : ℚ) * p2 Pi) ≤ 0
      linarith
    · left; show min 0 Pk = 0; omega
    · show min 0 _ = 0; omega
  · obtain ⟨s, hs⟩ := bool_of_k hek
    rw [min_eq_left h1, min_eq_left (by omega : E.integers ≤ Pk + Pi)]
    rw [KBI.apply_eq_gq E s hs, KBI.apply_eq_gq _ s (by exact hs)]
    simp only
    rw [hS]
    have w1 : 0 ≤ s.toInt + (E.integers - E.keepNegative) + (E.bits - E.integers) := by omega
    constructor
    · rcases le_or_gt E.bits (Pk + Pi + Pf) with h | h
      · rw [min_eq_left h]
      · rw [min_eq_right h.le]
        exact gq_wrap_grid s (g := inp.f) (by omega) w1 (by omega) (by omega) q.rnd hg
    · have hk0 := gq_kif s w1 q.rnd .WRAP x
      rcases le_or_gt (E.bits - E.integers) Pf with h | h
      · exact isKif_mono hk0 (by omega) (by simp only; omega) (by simp only; omega) h
      · have hPf' : Pf = inp.f := by omega
        rw [hPf']
        have hgr := gq_wrap_on_grid s w1 (g := inp.f) (by omega) q.rnd hg
        have := isKif_mono (f' := E.bits - E.integers) hk0 (by omega) (by omega : s.toInt ≤ Pk) h2 le_rfl
        exact ⟨hgr, this.2⟩

/-- fractional bits after the query, in integers: (ak, ab, ai) is the element with the most fractional bits before, (bk, bb, bi) the
element that has the most after -/
theorem shrink_frac {Tf Af Bf Pk Pi Pf ak ab ai bk bb bi : ℤ} (hPf : min Tf Af = Pf) (hw : 1 ≤ Pk + Pi + Pf)
    (ha : ab - ai = Af) (hb : min bb (Pk + Pi + Pf) - min bi (Pk + Pi) = Bf) (hbA : bb - bi ≤ Af)
    (haB : min ab (Pk + Pi + Pf) - min ai (Pk + Pi) ≤ Bf)
    (ha' : ak = 0 ∧ ab = 0 ∧ ai = 0 ∨ ak ≤ Pk ∧ ai - ak ≤ Pi) (hb' : bk = 0 ∧ bb = 0 ∧ bi = 0 ∨ bk ≤ Pk ∧ bi - bk ≤ Pi) :
    min Tf Bf = Pf := by
  rcases ha' with ⟨rfl, rfl, rfl⟩ | ⟨h1, h2⟩ <;> rcases hb' with ⟨rfl, rfl, rfl⟩ | ⟨h3, h4⟩ <;> omega

theorem shrink_intb {Ti Ai Bi Pk Pi ak ab ai bk bb bi : ℤ} (c : Prop) [Decidable c] (hk : 0 ≤ Pk) (hk1 : Pk ≤ 1)
    (hPi : Pi = if Ti ≤ Ai ∧ c then min Ti Ai + 1 else min Ti Ai)
    (ha : ai - ak = Ai) (hb : min bi (Pk + Pi) - min bk Pk = Bi) (hbA : bi - bk ≤ Ai)
    (haB : min ai (Pk + Pi) - min ak Pk ≤ Bi)
    (ha' : ak = 0 ∧ ab = 0 ∧ ai = 0 ∨ ak ≤ Pk ∧ ai - ak ≤ Pi) (hb' : bk = 0 ∧ bb = 0 ∧ bi = 0 ∨ bk ≤ Pk ∧ bi - bk ≤ Pi) :
    (if Ti ≤ Bi ∧ c then min Ti Bi + 1 else min Ti Bi) = Pi := by
  by_cases hc : c <;> simp only [hc, and_true, and_false, if_false] at hPi ⊢
  · rcases ha' with ⟨rfl, rfl, rfl⟩ | ⟨h1, h2⟩ <;> rcases hb' with ⟨rfl, rfl, rfl⟩ | ⟨h3, h4⟩ <;>
      split_ifs at hPi ⊢ <;> omega
  · rcases ha' with ⟨rfl, rfl, rfl⟩ | ⟨h1, h2⟩ <;> rcases hb' with ⟨rfl, rfl, rfl⟩ | ⟨h3, h4⟩ <;> omega

/-- **C35**, heterogeneous wrapping quantizers, element by element: a repeated query returns the same and changes nothing. -/
theorem C35_elementwise_idempotent (q : FPQ) (inp : KIF) (hne : q.elems ≠ [])
    (hel : ∀ e ∈ q.elems, (e.keepNegative = 0 ∨ e.keepNegative = 1) ∧ 0 ≤ e.bits) (hik : inp.k = 0 ∨ inp.k = 1)
    (hf : q.ElemsFit inp) : (q.produced inp).2.produced inp = q.produced inp := by
  obtain ⟨hS, hw, hall⟩ := hf
  have hnew : (q.produced inp).2 = { q with elems := q.elems.map fun e =>
      { keepNegative := min e.keepNegative (min inp.k q.kif.k),
        bits := min e.bits (min inp.k q.kif.k + retI inp q.kif + min inp.f q.kif.f),
        integers := min e.integers (min inp.k q.kif.k + retI inp q.kif) } } := by
    rw [q.produced_snd]
    split_ifs with hc
    · rfl
    · push Not at hc
      rw [hc.1, hc.2.1, hc.2.2]
      have : (q.elems.map fun e => KBI.mk (min e.keepNegative q.kif.k) (min e.bits (q.kif.k + q.kif.i + q.kif.f))
          (min e.integers (q.kif.k + q.kif.i))) = q.elems := by
        conv_rhs => rw [← List.map_id q.elems]
        apply List.map_congr_left
        intro e he
        obtain ⟨l1, l2, l3⟩ := q.elem_le he
        simp only [id]
        cases e
        simp only at l1 l2 l3
        simp only [KBI.mk.injEq]
        omega
      rw [this]
  rw [q.produced_fst] at hw hall
  simp only at hw hall
  obtain ⟨P1, P2, hP⟩ : ∃ a b, q.produced inp = (a, b) := ⟨_, _, rfl⟩
  have hfst := q.produced_fst inp
  rw [hP] at hnew hfst
  rw [hP]
  simp only at hnew hfst ⊢
  -- the elements with the largest sign, integer and fractional bits, before and after
  obtain ⟨Ak, hAk, hAk'⟩ := List.mem_map.mp (listMax_mem (l := q.elems.map fun e => e.keepNegative) (by simpa using hne))
  obtain ⟨Ai, hAi, hAi'⟩ := List.mem_map.mp
    (listMax_mem (l := q.elems.map fun e => e.integers - e.keepNegative) (by simpa using hne))
  obtain ⟨Af, hAf, hAf'⟩ := List.mem_map.mp (listMax_mem (l := q.elems.map fun e => e.bits - e.integers) (by simpa using hne))
  have hne2 : P2.elems ≠ [] := by rw [hnew]; simpa using hne
  obtain ⟨Bk, hBk, hBk'⟩ := List.mem_map.mp (listMax_mem (l := P2.elems.map fun e => e.keepNegative) (by simpa using hne2))
  obtain ⟨Bi, hBi, hBi'⟩ := List.mem_map.mp
    (listMax_mem (l := P2.elems.map fun e => e.integers - e.keepNegative) (by simpa using hne2))
  obtain ⟨Bf, hBf, hBf'⟩ := List.mem_map.mp (listMax_mem (l := P2.elems.map fun e => e.bits - e.integers) (by simpa using hne2))
  change Ak.keepNegative = q.kif.k at hAk'
  change Ai.integers - Ai.keepNegative = q.kif.i at hAi'
  change Af.bits - Af.integers = q.kif.f at hAf'
  change Bk.keepNegative = P2.kif.k at hBk'
  change Bi.integers - Bi.keepNegative = P2.kif.i at hBi'
  change Bf.bits - Bf.integers = P2.kif.f at hBf'
  generalize hPk : min inp.k q.kif.k = Pk at *
  generalize hPi : retI inp q.kif = Pi at *
  generalize hPf : min inp.f q.kif.f = Pf at *
  have key : ∀ e ∈ q.elems, e.keepNegative ≤ q.kif.k ∧ e.integers - e.keepNegative ≤ q.kif.i ∧ e.bits - e.integers ≤ q.kif.f ∧
      (e.keepNegative = 0 ∨ e.keepNegative = 1) ∧ 0 ≤ e.bits ∧
      (e.keepNegative = 0 ∧ e.bits = 0 ∧ e.integers = 0 ∨ e.keepNegative ≤ Pk ∧ e.integers - e.keepNegative ≤ Pi) ∧
      min e.keepNegative Pk ≤ P2.kif.k ∧ min e.integers (Pk + Pi) - min e.keepNegative Pk ≤ P2.kif.i ∧
      min e.bits (Pk + Pi + Pf) - min e.integers (Pk + Pi) ≤ P2.kif.f := by
    intro e he
    obtain ⟨l1, l2, l3⟩ := q.elem_le he
    obtain ⟨hek, heb⟩ := hel e he
    have hm : (⟨min e.keepNegative Pk, min e.bits (Pk + Pi + Pf), min e.integers (Pk + Pi)⟩ : KBI) ∈ P2.elems := by
      rw [hnew]; exact List.mem_map.mpr ⟨e, he, rfl⟩
    obtain ⟨m1, m2, m3⟩ := P2.elem_le hm
    refine ⟨l1, l2, l3, hek, heb, ?_, m1, m2, m3⟩
    rcases hall e he with h | h
    · left; rw [h]; exact ⟨rfl, rfl, rfl⟩
    · exact .inr h
  have back : ∀ b ∈ P2.elems, ∃ e ∈ q.elems, b.keepNegative = min e.keepNegative Pk ∧
      b.bits = min e.bits (Pk + Pi + Pf) ∧ b.integers = min e.integers (Pk + Pi) := by
    intro b hb
    rw [hnew] at hb
    obtain ⟨e, he, rfl⟩ := List.mem_map.mp hb
    exact ⟨e, he, rfl, rfl, rfl⟩
  have ek : P2.kif.k = Pk := by
    have := key Ak hAk
    obtain ⟨e, he, h1, h2, h3⟩ := back Bk hBk
    have := key e he
    omega
  have hPi' : Pi = if inp.i ≤ q.kif.i ∧ inp.f > Pf then min inp.i q.kif.i + 1 else min inp.i q.kif.i := by
    rw [← hPi, ← hPf]; rfl
  have hk01 : 0 ≤ Pk ∧ Pk ≤ 1 := by
    have := key Ak hAk
    omega
  have ef : min inp.f P2.kif.f = Pf := by
    obtain ⟨a1, a2, a3, a4, a5, a6, a7, a8, a9⟩ := key Af hAf
    obtain ⟨e, he, h1, h2, h3⟩ := back Bf hBf
    obtain ⟨b1, b2, b3, b4, b5, b6, b7, b8, b9⟩ := key e he
    rw [h2, h3] at hBf'
    exact shrink_frac hPf hw hAf' hBf' b3 a9 a6 b6
  have ei : retI inp P2.kif = Pi := by
    obtain ⟨a1, a2, a3, a4, a5, a6, a7, a8, a9⟩ := key Ai hAi
    obtain ⟨e, he, h1, h2, h3⟩ := back Bi hBi
    obtain ⟨b1, b2, b3, b4, b5, b6, b7, b8, b9⟩ := key e he
    rw [h1, h3] at hBi'
    unfold retI
    rw [ef]
    exact shrink_intb _ hk01.1 hk01.2 hPi' hAi' hBi' b2 a8 a6 b6
  refine Prod.ext ?_ ?_
  · rw [P2.produced_fst, hfst, ei, ef, ek, show min inp.k Pk = Pk by omega]
  · rw [P2.produced_snd, ei, ef, ek, show min inp.k Pk = Pk by omega]
    simp only
    split_ifs
    · have : (P2.elems.map fun e => KBI.mk (min e.keepNegative Pk) (min e.bits (Pk + Pi + Pf))
          (min e.integers (Pk + Pi))) = P2.elems := by
        conv_rhs => rw [← List.map_id P2.elems]
        apply List.map_congr_left
        intro e he
        obtain ⟨e0, he0, h1, h2, h3⟩ := back e he
        cases e
        simp only at h1 h2 h3
        simp only [id, KBI.mk.injEq]
        omega
      rw [this]
    · rfl

-- a pruned element and two live ones behind a type with fewer fractional bits: the type changes, no output does
example : let q : FPQ := ⟨[⟨0, 0, 0⟩, ⟨1, 4, 2⟩, ⟨0, 5, 1⟩], .RND, .WRAP⟩
    let inp : KIF := ⟨1, 1, 3⟩
    (q.produced inp).1 = ⟨1, 1, 3⟩ ∧ (q.produced inp).1 ≠ q.kif ∧
    (∀ e ∈ q.elems, e = KBI.pruned ∨
      e.keepNegative ≤ (q.produced inp).1.k ∧ e.integers - e.keepNegative ≤ (q.produced inp).1.i) ∧
    inp.holdsB (-15 / 8) = true ∧ q.call 1 (-15 / 8) = -7 / 4 ∧ (q.produced inp).2.call 1 (-15 / 8) = -7 / 4 := by decide +kernel

end HGQ
