import Verif.Model.UnaryLut
import Verif.Props.Merge

/-!
C41, C42: activations replaced by look-up tables.
-/

namespace HGQ

open Spec

theorem getD_map_lt {α β : Type} (g : α → β) (l : List α) (d : β) (d' : α) {e : ℕ} (h : e < l.length) :
    (l.map g).getD e d = g (l.getD e d') := by
  rw [getD_lt _ _ (by simpa using h), getD_lt _ _ h, List.getElem_map]

theorem getD_app_left {α : Type} (l m : List α) (d : α) {e : ℕ} (h : e < l.length) : (l ++ m).getD e d = l.getD e d := by
  rw [getD_lt _ _ (by rw [List.length_append]; omega), getD_lt _ _ h, List.getElem_append_left h]

theorem getD_app_right {α : Type} (l m : List α) (d : α) {e : ℕ} (h : l.length ≤ e) :
    (l ++ m).getD e d = m.getD (e - l.length) d := by
  simp only [List.getD_eq_getElem?_getD]
  rw [List.getElem?_append_right h]

theorem linspace_length (a b : ℚ) (N : ℕ) : (linspace a b N).length = N := by simp [linspace]

theorem linspace_getD (a b : ℚ) (N e : ℕ) (h : e < N) :
    (linspace a b N).getD e 0 = a + (e : ℚ) * ((b - a) / (N - 1)) := by
  rw [getD_lt _ _ (by rwa [linspace_length])]
  simp [linspace]

/-- the step of the table inputs -/
theorem lut_step {i f : ℤ} (h : 0 ≤ i + f) (e : ℕ) (he : (e : ℤ) < 2 ^ (i + f).toNat) :
    (e : ℚ) * ((p2 i - p2 (-f) - 0) / (((2 ^ (i + f).toNat : ℕ) : ℚ) - 1)) = e * p2 (-f) := by
  rcases Nat.eq_zero_or_pos e with rfl | hpos
  · simp
  congr 1
  have e1 : p2 i = ((2 ^ (i + f).toNat : ℕ) : ℚ) * p2 (-f) := by
    have : p2 i = p2 (i + f) * p2 (-f) := by rw [← p2_add]; congr 1; ring
    rw [this]; congr 1
    obtain ⟨w, hw⟩ := Int.eq_ofNat_of_zero_le h
    rw [hw, p2_natCast]; simp
  have hne : (((2 ^ (i + f).toNat : ℕ) : ℚ) - 1) ≠ 0 := by
    have : (1 : ℤ) < 2 ^ (i + f).toNat := by omega
    have : (1 : ℚ) < ((2 ^ (i + f).toNat : ℕ) : ℚ) := by exact_mod_cast this
    linarith
  rw [e1, sub_zero]
  field_simp

theorem lutInputs_length (t : KIF) (hk : t.k = 0 ∨ t.k = 1) (hw : 0 < t.k + t.i + t.f) :
    (lutInputs t).length = 2 ^ (t.k + t.i + t.f).toNat := by
  unfold lutInputs
  simp only
  split_ifs with h
  · rw [List.length_append, List.length_map, linspace_length]
    obtain ⟨m, hm⟩ : ∃ m, (t.k + t.i + t.f).toNat = m + 1 := ⟨(t.k + t.i + t.f).toNat - 1, by omega⟩
    rw [hm, pow_succ]; omega
  · rw [linspace_length]

/-- entry `n mod N` of the table of inputs is `n * 2^-f` for every `n` of the type -/
theorem lutInputs_get (t : KIF) (hk : t.k = 0 ∨ t.k = 1) (hw : 0 < t.k + t.i + t.f) (n : ℤ)
    (h : t.Holds (n * p2 (-t.f))) :
    (lutInputs t).getD (n % ((2 ^ (t.k + t.i + t.f).toNat : ℕ) : ℤ)).toNat 0 = n * p2 (-t.f) := by
  obtain ⟨k, i, f⟩ := t
  simp only at hk hw h ⊢
  obtain ⟨-, l, u⟩ := h
  have l : -((k : ℚ) * p2 i) ≤ (n : ℚ) * p2 (-f) := l
  have u : (n : ℚ) * p2 (-f) < p2 i := u
  have hif : 0 ≤ i + f := by omega
  have e1 : p2 i = ((2 ^ (i + f).toNat : ℤ) : ℚ) * p2 (-f) := by
    have : p2 i = p2 (i + f) * p2 (-f) := by rw [← p2_add]; congr 1; ring
    rw [this]; congr 1
    obtain ⟨w, hw⟩ := Int.eq_ofNat_of_zero_le hif
    rw [hw, p2_natCast]; simp
  have hp := p2_pos (-f)
  have u' : n < 2 ^ (i + f).toNat := by
    rw [e1] at u
    have := lt_of_mul_lt_mul_right u hp.le
    exact_mod_cast this
  have l' : -(k * 2 ^ (i + f).toNat) ≤ n := by
    rw [e1, ← mul_assoc, ← neg_mul] at l
    have := le_of_mul_le_mul_right l hp
    exact_mod_cast this
  unfold lutInputs
  simp only
  rcases hk with rfl | rfl
  · rw [if_neg (by simp)]
    have e0 : (0 + i + f).toNat = (i + f).toNat := by rw [zero_add]
    rw [e0]
    have hn : 0 ≤ n := by omega
    rw [Int.emod_eq_of_lt hn (by push_cast; exact u')]
    rw [linspace_getD _ _ _ _ (by zify; rw [Int.toNat_of_nonneg hn]; exact u')]
    have := lut_step hif n.toNat (by rw [Int.toNat_of_nonneg hn]; exact u')
    simp only [Int.cast_zero, mul_zero, zero_add] at this ⊢
    rw [this]
    congr 1
    exact_mod_cast Int.toNat_of_nonneg hn
  · rw [if_pos (by simp)]
    have e0 : (1 + i + f).toNat = (i + f).toNat + 1 := by omega
    rw [e0]
    have e2 : 2 ^ ((i + f).toNat + 1) / 2 = 2 ^ (i + f).toNat := by rw [pow_succ]; omega
    rw [e2]
    rcases le_or_gt 0 n with hn | hn
    · have hm : n % ((2 ^ ((i + f).toNat + 1) : ℕ) : ℤ) = n :=
        Int.emod_eq_of_lt hn (by push_cast; rw [pow_succ]; omega)
      rw [hm]
      have hlt : n.toNat < 2 ^ (i + f).toNat := by zify; rw [Int.toNat_of_nonneg hn]; exact u'
      rw [getD_app_left _ _ _ (by rwa [linspace_length])]
      rw [linspace_getD _ _ _ _ hlt]
      have := lut_step hif n.toNat (by rw [Int.toNat_of_nonneg hn]; exact u')
      rw [this, zero_add]
      congr 1
      exact_mod_cast Int.toNat_of_nonneg hn
    · have hm : n % ((2 ^ ((i + f).toNat + 1) : ℕ) : ℤ) = n + 2 ^ ((i + f).toNat + 1) := by
        push_cast
        rw [← Int.add_emod_right]
        exact Int.emod_eq_of_lt (by rw [pow_succ]; omega) (by omega)
      rw [hm]
      obtain ⟨M, hM⟩ : ∃ M : ℕ, M = 2 ^ (i + f).toNat := ⟨_, rfl⟩
      have hMz : (2 : ℤ) ^ (i + f).toNat = M := by rw [hM]; push_cast; rfl
      have hd : (n + 2 ^ ((i + f).toNat + 1)).toNat = M + (n + M).toNat := by
        rw [pow_succ, hMz]; omega
      rw [hd, ← hM]
      rw [getD_app_right _ _ _ (by rw [linspace_length]; omega), linspace_length]
      have hlt : (n + M).toNat < M := by omega
      rw [show M + (n + M).toNat - M = (n + M).toNat by omega]
      rw [getD_map_lt _ _ _ 0 (by rw [linspace_length]; exact hlt), linspace_getD _ _ _ _ hlt]
      have := lut_step hif (n + M).toNat (by rw [hMz]; omega)
      rw [← hM] at this
      rw [this, zero_add, e1, hMz]
      have hnn : (((n + M).toNat : ℕ) : ℚ) = n + M := by
        have : (((n + M).toNat : ℕ) : ℤ) = n + M := Int.toNat_of_nonneg (by omega)
        exact_mod_cast this
      rw [hnn]
      push_cast
      ring

/-- **C41.** A table built from an activation returns, for every value of the input type, the activation's value quantized
to the output type. -/
theorem C41_lut_is_quantized_activation (limit hlsMax : ℤ) (phi : ℚ → ℚ) (t : KIF) (hk : t.k = 0 ∨ t.k = 1) (out : KifRS)
    (L : Lut) (hL : Lut.fromActivation limit hlsMax phi t out = .ok L) (x : ℚ) (hx : t.Holds x) :
    L.call x = out.kif.cast out.rnd out.sat (phi x) := by
  unfold Lut.fromActivation at hL
  split_ifs at hL with h1 h2
  unfold Lut.init at hL
  split_ifs at hL with h3 h4
  simp only [Except.ok.injEq] at hL
  have hw : 0 < t.k + t.i + t.f := by simpa [KIF.sum] using h1
  obtain ⟨⟨n, hn⟩, -⟩ := id hx
  change x = n * p2 (-t.f) at hn
  subst hn
  have hlen := lutInputs_length t hk hw
  rw [← hL]
  unfold Lut.call
  simp only [List.length_map]
  rw [mul_assoc, p2_neg_mul, mul_one, tfRound_int, hlen]
  have hidx : (n % ((2 ^ (t.k + t.i + t.f).toNat : ℕ) : ℤ)).toNat < 2 ^ (t.k + t.i + t.f).toNat := by
    have hpos : (0 : ℤ) < ((2 ^ (t.k + t.i + t.f).toNat : ℕ) : ℤ) := by positivity
    have h5 := Int.emod_nonneg n hpos.ne'
    have h6 := Int.emod_lt_of_pos n hpos
    omega
  rw [getD_map_lt _ _ _ 0 (by rw [List.length_map, hlen]; exact hidx), getD_map_lt _ _ _ 0 (by rw [hlen]; exact hidx),
    lutInputs_get t hk hw n hx]
  rfl

/-- **C41**, in place: if the quantizer behind the activation is fused into the table, table then quantizer equals
activation then quantizer. -/
theorem C41_lut_before_fused_quantizer (limit hlsMax : ℤ) (phi : ℚ → ℚ) (t : KIF) (hk : t.k = 0 ∨ t.k = 1) (q : FPQ)
    (out : KifRS) (hout : fusibleResult [.quant q] = some out) (L : Lut)
    (hL : Lut.fromActivation limit hlsMax phi t out = .ok L) (hqk : q.kif.k = 0 ∨ q.kif.k = 1) (hS : q.sat ≠ .SAT_SYM)
    (e : ℕ) (he : e < q.elems.length) (x : ℚ) (hx : t.Holds x) :
    q.call e (L.call x) = q.call e (phi x) := by
  rw [C41_lut_is_quantized_activation limit hlsMax phi t hk out L hL x hx]
  obtain ⟨q', hq', hc⟩ := C67_fused_quantizer _ _ hout
  cases hq'
  rw [hc e he]
  have hh : heterogeneous q.elems = false := by
    rw [C09_heterogeneous_iff]
    obtain ⟨q'', h1, h2⟩ := (C67_fused_iff [.quant q]).mp (by rw [hout]; rfl)
    cases h1; exact h2
  obtain ⟨s, hs⟩ := bool_of_k hqk
  have hcall : ∀ y, q.call e y = gq s q.kif.i q.kif.f q.rnd q.sat y := by
    intro y
    unfold FPQ.call
    rw [getD_lt _ _ he, q.elem_of_kif hh _ (List.getElem_mem he), hs]; rfl
  have hw : 0 ≤ s.toInt + q.kif.i + q.kif.f := by
    unfold Lut.fromActivation at hL
    split_ifs at hL with h1 h2
    unfold Lut.init at hL
    split_ifs at hL with h3 h4
    have hok : out.kif = q.kif := by
      unfold fusibleResult at hout
      simp only [hh, Bool.false_eq_true, if_false, Option.some.injEq] at hout
      rw [← hout]
    rw [hok, KIF.sum] at h3
    rw [← hs]; omega
  rw [hcall, hcall]
  have hin := gq_kif s hw q.rnd q.sat (phi x)
  rw [gq_of_kif s hw q.rnd q.sat hS _ (by rw [rv_of_grid _ _ hin.1]; exact hin), rv_of_grid _ _ hin.1]

/-- **C42** (partial). With a limit of the table constructor above the requested maximum, and types with at least one bit,
the replacement never fails, and a table is used exactly for activations other than softmax, relu and linear with one
input whose type has at most `T` values. Missing: `T` at or above the constructor's own limits and types without bits,
where conversion crashes (below). -/
theorem C42_lut_iff_fits_partial (limit hlsMax T : ℤ) (isAct : Bool) (kind : LutKind) (phi : ℚ → ℚ) (kifsIn : List KIF)
    (out : KifRS) (hT : T < limit ∨ limit ≤ 0) (hT' : T < hlsMax) (hin : ∀ t ∈ kifsIn, 0 < t.k + t.i + t.f)
    (hout : 0 < out.kif.k + out.kif.i + out.kif.f) :
    ∃ r, xfrToUnaryLut limit hlsMax T isAct kind phi kifsIn out = .ok r ∧
      (r.isSome ↔ isAct = true ∧ kind = .other ∧ ∃ t, kifsIn = [t] ∧ (2 : ℚ) ^ (t.k + t.i + t.f) ≤ T) := by
  unfold xfrToUnaryLut
  by_cases h1 : isAct = true
  · rw [if_neg (by simpa using h1)]
    by_cases h2 : kind = .other
    · subst h2
      rw [if_neg (by decide), if_neg (by decide)]
      rcases kifsIn with _ | ⟨t, _ | ⟨t', l⟩⟩
      · exact ⟨none, rfl, by simp⟩
      · simp only
        by_cases h3 : p2 t.sum > T
        · rw [if_pos h3]
          refine ⟨none, rfl, ?_⟩
          simp only [Option.isSome_none, Bool.false_eq_true, false_iff, not_and, not_exists]
          intro _ _ t' ht' h
          cases ht'
          exact absurd h (not_le.mpr h3)
        · rw [if_neg h3]
          have hsum : 0 < t.sum := hin t (by simp)
          have hs2 : 0 < out.kif.sum := hout
          have h5 : p2 t.sum < hlsMax := lt_of_le_of_lt (not_lt.mp h3) (by exact_mod_cast hT')
          have h6 : ¬ (limit > 0 ∧ ¬ p2 t.sum < limit) := by
            rintro ⟨h7, h8⟩
            rcases hT with h | h
            · exact h8 (lt_of_le_of_lt (not_lt.mp h3) (by exact_mod_cast h))
            · omega
          unfold Lut.fromActivation Lut.init
          rw [if_neg (by simpa using hsum), if_neg (by simpa using h5), if_neg (by simpa using hsum),
            if_neg (by simpa using hs2), if_neg h6]
          refine ⟨some _, rfl, ?_⟩
          simp only [Option.isSome_some, true_iff]
          exact ⟨h1, trivial, t, rfl, not_lt.mp h3⟩
      · exact ⟨none, rfl, by simp⟩
    · refine ⟨none, ?_, by simp [h2]⟩
      cases kind
      · simp
      · simp
      · simp
      · exact absurd rfl h2
  · rw [if_pos (by simpa using h1)]
    exact ⟨none, rfl, by simp [h1]⟩

/-- **C42**, all cases, for any limits and types. The layer is kept exactly when the property says so. It becomes a table
exactly when the property asks for one and both types have a bit and the table is strictly below both limits of the
constructor. In the remaining cases the property asks for a table and conversion crashes. -/
theorem C42_exact (limit hlsMax T : ℤ) (isAct : Bool) (kind : LutKind) (phi : ℚ → ℚ) (kifsIn : List KIF) (out : KifRS) :
    let wanted (t : KIF) := isAct = true ∧ kind = .other ∧ kifsIn = [t] ∧ (2 : ℚ) ^ (t.k + t.i + t.f) ≤ T
    (xfrToUnaryLut limit hlsMax T isAct kind phi kifsIn out = .ok none ↔ ¬ ∃ t, wanted t) ∧
    ((∃ L, xfrToUnaryLut limit hlsMax T isAct kind phi kifsIn out = .ok (some L)) ↔
      ∃ t, wanted t ∧ 0 < t.k + t.i + t.f ∧ 0 < out.kif.k + out.kif.i + out.kif.f ∧
        (2 : ℚ) ^ (t.k + t.i + t.f) < hlsMax ∧ (0 < limit → (2 : ℚ) ^ (t.k + t.i + t.f) < limit)) := by
  intro wanted
  by_cases h1 : isAct = true
  swap
  · have hw : ¬ ∃ t, wanted t := fun ⟨t, h, _⟩ => h1 h
    have : xfrToUnaryLut limit hlsMax T isAct kind phi kifsIn out = .ok none := by
      unfold xfrToUnaryLut; rw [if_pos (by simpa using h1)]
    rw [this]
    exact ⟨by simp [hw], by simp only [Except.ok.injEq, reduceCtorEq, exists_false, false_iff]; exact fun ⟨t, h, _⟩ => hw ⟨t, h⟩⟩
  by_cases h2 : kind = .other
  swap
  · have hw : ¬ ∃ t, wanted t := fun ⟨t, _, h, _⟩ => h2 h
    have : xfrToUnaryLut limit hlsMax T isAct kind phi kifsIn out = .ok none := by
      unfold xfrToUnaryLut
      cases kind <;> simp_all
    rw [this]
    exact ⟨by simp [hw], by simp only [Except.ok.injEq, reduceCtorEq, exists_false, false_iff]; exact fun ⟨t, h, _⟩ => hw ⟨t, h⟩⟩
  by_cases h3 : ∃ t, wanted t
  swap
  · have : xfrToUnaryLut limit hlsMax T isAct kind phi kifsIn out = .ok none := by
      unfold xfrToUnaryLut
      subst h1 h2
      rw [if_neg (by simp), if_neg (by decide), if_neg (by decide)]
      rcases kifsIn with _ | ⟨t, _ | ⟨t', l⟩⟩
      · rfl
      · simp only
        rw [if_pos]
        by_contra hn
        exact h3 ⟨t, rfl, rfl, rfl, not_lt.mp hn⟩
      · rfl
    rw [this]
    exact ⟨by simp [h3], by simp only [Except.ok.injEq, reduceCtorEq, exists_false, false_iff]; exact fun ⟨t, h, _⟩ => h3 ⟨t, h⟩⟩
  obtain ⟨t, -, -, rfl, hle⟩ := h3
  subst h1 h2
  have hu : xfrToUnaryLut limit hlsMax T true .other phi [t] out = (Lut.fromActivation limit hlsMax phi t out).map some := by
    unfold xfrToUnaryLut
    rw [if_neg (by simp), if_neg (by decide), if_neg (by decide)]
    exact if_neg (not_lt.mpr hle)
  have hwt : wanted t := ⟨rfl, rfl, rfl, hle⟩
  rw [hu]
  constructor
  · constructor
    · intro h
      cases hf : Lut.fromActivation limit hlsMax phi t out with
      | error e => rw [hf] at h; cases h
      | ok L => rw [hf] at h; cases h
    · intro h; exact absurd ⟨t, hwt⟩ h
  · have hone : (∃ t', wanted t' ∧ 0 < t'.k + t'.i + t'.f ∧ 0 < out.kif.k + out.kif.i + out.kif.f ∧
        (2 : ℚ) ^ (t'.k + t'.i + t'.f) < hlsMax ∧ (0 < limit → (2 : ℚ) ^ (t'.k + t'.i + t'.f) < limit)) ↔
        0 < t.sum ∧ 0 < out.kif.sum ∧ p2 t.sum < hlsMax ∧ (0 < limit → p2 t.sum < limit) := by
      constructor
      · rintro ⟨t', ⟨_, _, e, _⟩, h⟩
        cases e
        exact h
      · intro h; exact ⟨t, hwt, h⟩
    rw [hone]
    unfold Lut.fromActivation Lut.init
    constructor
    · rintro ⟨L, hL⟩
      split_ifs at hL with a b c d <;> try cases hL
      refine ⟨by simpa using a, by simpa using c, by simpa using b, fun hl => ?_⟩
      by_contra hn
      exact d ⟨hl, hn⟩
    · rintro ⟨a, b, c, d⟩
      rw [if_neg (by simpa using a), if_neg (by simpa using c), if_neg (by simpa using a), if_neg (by simpa using b),
        if_neg (fun h => h.2 (d h.1))]
      exact ⟨_, rfl⟩

/-- **C42** fails at the constructor's limit: with the default limit 4096, a maximum of 4096 and a 12-bit input, conversion
crashes although the table fits (the documentation of the option promises "less than or equal"). -/
theorem C42_crash_at_limit (phi : ℚ → ℚ) (out : KifRS) (hout : 0 < out.kif.k + out.kif.i + out.kif.f) :
    (2 : ℚ) ^ ((1 : ℤ) + 5 + 6) ≤ (4096 : ℤ) ∧
    xfrToUnaryLut 4096 65536 4096 true .other phi [⟨1, 5, 6⟩] out = .error "Input to activation is too large" := by
  have e : p2 (KIF.sum ⟨1, 5, 6⟩) = 4096 := by decide +kernel
  refine ⟨by norm_num, ?_⟩
  have hs2 : 0 < out.kif.sum := hout
  have hs : 0 < KIF.sum ⟨1, 5, 6⟩ := by decide
  unfold xfrToUnaryLut
  simp only [not_true_eq_false, if_false, reduceCtorEq, or_self]
  rw [if_neg (by rw [e]; norm_num)]
  unfold Lut.fromActivation Lut.init
  rw [if_neg (by simpa using hs), if_neg (by rw [e]; norm_num), if_neg (by simpa using hs), if_neg (by simpa using hs2),
    if_pos ⟨by norm_num, by rw [e]; norm_num⟩]
  rfl

/-- **C42** fails for an input without bits: conversion crashes. -/
theorem C42_crash_on_zero_width (phi : ℚ → ℚ) (out : KifRS) (t : KIF) (ht : t.k + t.i + t.f ≤ 0) (T : ℤ) (hT : 1 ≤ T) :
    xfrToUnaryLut 4096 65536 T true .other phi [t] out = .error "Activation function is applied to an zero array." := by
  have hs : ¬ t.sum > 0 := by unfold KIF.sum; omega
  have h1 : p2 t.sum ≤ 1 := by
    have := p2_le_p2 (a := t.sum) (b := 0) (by unfold KIF.sum; omega)
    simpa [p2] using this
  have h2 : (1 : ℚ) ≤ T := by exact_mod_cast hT
  unfold xfrToUnaryLut
  simp only [not_true_eq_false, if_false, reduceCtorEq, or_self]
  rw [if_neg (by linarith)]
  unfold Lut.fromActivation
  rw [if_pos hs]
  rfl

/-! Non-vacuity -/

example : (Lut.fromActivation 4096 65536 (fun x => x * x) ⟨1, 1, 1⟩ ⟨⟨0, 2, 1⟩, .RND, .SAT⟩).map (·.table) =
    .ok [0, 1/2, 1, 5/2, 7/2, 5/2, 1, 1/2] := by decide +kernel

example (L : Lut) (h : Lut.fromActivation 4096 65536 (fun x => x * x) ⟨1, 1, 1⟩ ⟨⟨0, 2, 1⟩, .RND, .SAT⟩ = .ok L) :
    L.call (-3/2) = 5/2 := by
  rw [C41_lut_is_quantized_activation _ _ _ _ (.inr rfl) _ L h _ (KIF.holds_of_holdsB (by decide +kernel))]
  decide +kernel

example : ∃ r, xfrToUnaryLut 4096 65536 1024 true .other (fun x => x / 3) [⟨1, 3, 4⟩] ⟨⟨1, 2, 5⟩, .RND, .WRAP⟩ = .ok (some r) := by
  obtain ⟨r, h1, h2⟩ := C42_lut_iff_fits_partial 4096 65536 1024 true .other (fun x => x / 3) [⟨1, 3, 4⟩]
    ⟨⟨1, 2, 5⟩, .RND, .WRAP⟩ (.inl (by norm_num)) (by norm_num) (by simp) (by norm_num)
  have : r.isSome := h2.mpr ⟨rfl, rfl, _, rfl, by norm_num⟩
  obtain ⟨l, hl⟩ := Option.isSome_iff_exists.mp this
  exact ⟨l, by rw [h1, hl]⟩

end HGQ
