import Verif.Lemmas.PrecGraph
import Verif.Lemmas.Layer
import Verif.Props.Bits

/-!
Quantizers made from recorded ranges keep their function when their type is derived, if the ranges stay within the upstream type.
-/

namespace HGQ

open Spec

/-- `e` is the smallest type with `m` fractional bits for the range from `lo` to `hi`, pruned if that is zero -/
structure KBI.Tight (e : KBI) (lo hi : ℚ) (m : ℤ) : Prop where
  wf : (e.keepNegative = 0 ∨ e.keepNegative = 1) ∧ 0 ≤ e.bits
  glo : ∃ n : ℤ, lo = n * (2 : ℚ) ^ (-m)
  ghi : ∃ n : ℤ, hi = n * (2 : ℚ) ^ (-m)
  zero : lo = 0 → hi = 0 → e = KBI.pruned
  live : e ≠ KBI.pruned → e.bits - e.integers = m ∧ IsKif e.keepNegative (e.integers - e.keepNegative) m lo ∧
    IsKif e.keepNegative (e.integers - e.keepNegative) m hi
  least : e ≠ KBI.pruned → ∀ k' i', (k' = 0 ∨ k' = 1) → 0 ≤ k' + i' + m → IsKif k' i' m lo → IsKif k' i' m hi →
    e.keepNegative ≤ k' ∧ e.integers - e.keepNegative ≤ i'

/-- a value on the grid below one step in magnitude is zero -/
theorem grid_small {v : ℚ} {m : ℤ} (h : ∃ n : ℤ, v = n * (2 : ℚ) ^ (-m)) (h1 : -(2 : ℚ) ^ (-m) < v) (h2 : v < (2 : ℚ) ^ (-m)) : v = 0 := by
  obtain ⟨n, rfl⟩ := h
  have hp : (0 : ℚ) < (2 : ℚ) ^ (-m) := zpow2_pos _
  have a1 : (-1 : ℚ) < n := by
    by_contra hc; push Not at hc
    nlinarith
  have a2 : (n : ℚ) < 1 := by
    by_contra hc; push Not at hc
    nlinarith
  have b1 : (-1 : ℤ) < n := by exact_mod_cast a1
  have b2 : n < 1 := by exact_mod_cast a2
  have : n = 0 := by omega
  simp [this]

theorem isKif_width_nonpos {k i f : ℤ} (hk : k = 0 ∨ k = 1) (h0 : k + i + f ≤ 0) {v : ℚ} (h : IsKif k i f v) : v = 0 := by
  obtain ⟨hg, h1, h2⟩ := h
  have hp : (0 : ℚ) < (2 : ℚ) ^ i := zpow2_pos _
  rcases hk with rfl | rfl
  · have hle : (2 : ℚ) ^ i ≤ (2 : ℚ) ^ (-f) := p2_le_p2 (by omega)
    apply grid_small hg
    · push_cast at h1; linarith
    · linarith
  · have hlt : (2 : ℚ) ^ i < (2 : ℚ) ^ (-f) := p2_lt_p2 (by omega)
    apply grid_small hg
    · push_cast at h1; linarith
    · linarith

/-- The range from `lo` to `hi` of an element, rounded from values of type `T`: a sign only if `T` has one, at least `-2^i`, and below
`2^i`, or equal to it when all elements of the quantizer are coarser than `T`. -/
def Within (T : KIF) (f : ℤ) (lo hi : ℚ) : Prop :=
  lo ≤ hi ∧ (lo < 0 → T.k = 1) ∧ -(2 : ℚ) ^ T.i ≤ lo ∧ (hi < (2 : ℚ) ^ T.i ∨ hi ≤ (2 : ℚ) ^ T.i ∧ f < T.f) ∧
  (∃ n : ℤ, lo = n * (2 : ℚ) ^ (-T.f)) ∧ (∃ n : ℤ, hi = n * (2 : ℚ) ^ (-T.f))

/-- A quantizer whose elements are the smallest types of ranges within the upstream type: it is pruned altogether, or the produced
type has the sign and integer bits of every element that is not pruned. -/
theorem FPQ.cases_of_recorded {q : FPQ} {T : KIF} (hT : T.k = 0 ∨ T.k = 1)
    (h : ∀ e ∈ q.elems, ∃ lo hi m, e.Tight lo hi m ∧ (e ≠ KBI.pruned → Within T q.kif.f lo hi)) : q.AllPruned ∨
    (1 ≤ (q.produced T).1.k + (q.produced T).1.i + (q.produced T).1.f ∧
      ∀ e ∈ q.elems, e = KBI.pruned ∨
        e.keepNegative ≤ (q.produced T).1.k ∧ e.integers - e.keepNegative ≤ (q.produced T).1.i) := by
  by_cases hall : ∀ e ∈ q.elems, e = KBI.pruned
  · exact .inl hall
  · right
    push Not at hall
    obtain ⟨e0, he0, hlive0⟩ := hall
    have key : ∀ e ∈ q.elems, e ≠ KBI.pruned → e.keepNegative ≤ min T.k q.kif.k ∧ e.integers - e.keepNegative ≤ retI T q.kif := by
      intro e he hlive
      obtain ⟨lo, hi, m, ht, hw⟩ := h e he
      obtain ⟨hle, hneg, hlo, hhi, -⟩ := hw hlive
      obtain ⟨l1, l2, l3⟩ := q.elem_le he
      obtain ⟨-, c1, c2⟩ := ht.live hlive
      have hnz : ¬ (lo = 0 ∧ hi = 0) := fun hc => hlive (ht.zero hc.1 hc.2)
      -- the range is in every type with the sign of `T` and a range that is large enough
      have hp := zpow2_pos T.i
      have hmem : ∀ I, T.i ≤ I → hi < (2 : ℚ) ^ I → e.keepNegative ≤ T.k ∧ e.integers - e.keepNegative ≤ I := by
        intro I hI hlt
        have hpI : (2 : ℚ) ^ T.i ≤ (2 : ℚ) ^ I := p2_le_p2 hI
        have hlow : -((T.k : ℚ) * (2 : ℚ) ^ I) ≤ lo := by
          rcases lt_or_ge lo 0 with h0 | h0
          · rw [hneg h0]; push_cast; linarith
          · rcases hT with h1 | h1 <;> rw [h1] <;> push_cast <;> linarith
        have k1 : IsKif T.k I m lo := ⟨ht.glo, hlow, by linarith⟩
        have k2 : IsKif T.k I m hi := ⟨ht.ghi, by linarith, hlt⟩
        rcases lt_or_ge (T.k + I + m) 0 with hw | hw
        · exact absurd ⟨isKif_width_nonpos hT hw.le k1, isKif_width_nonpos hT hw.le k2⟩ hnz
        · exact ht.least hlive T.k I hT hw k1 k2
      have hstep : (2 : ℚ) ^ T.i < (2 : ℚ) ^ (T.i + 1) := p2_lt_p2 (by omega)
      have hsucc := hmem (T.i + 1) (by omega) (by rcases hhi with h | ⟨h, -⟩ <;> linarith)
      refine ⟨by omega, ?_⟩
      unfold retI
      rcases hhi with h' | ⟨-, h'⟩
      · have := hmem T.i le_rfl h'
        split_ifs <;> omega
      · split_ifs <;> omega
    have hP : 1 ≤ (q.produced T).1.k + (q.produced T).1.i + (q.produced T).1.f ∧
        ∀ e ∈ q.elems, e = KBI.pruned ∨
          e.keepNegative ≤ (q.produced T).1.k ∧ e.integers - e.keepNegative ≤ (q.produced T).1.i := by
      refine ⟨?_, fun e he => ?_⟩
      · rw [q.produced_fst]
        simp only
        obtain ⟨lo, hi, m, ht, hwi⟩ := h e0 he0
        obtain ⟨-, -, -, -, g1, g2⟩ := hwi hlive0
        obtain ⟨hm, c1, c2⟩ := ht.live hlive0
        obtain ⟨k1, k2⟩ := key e0 he0 hlive0
        obtain ⟨l1, l2, l3⟩ := q.elem_le he0
        have hk0 : 0 ≤ e0.keepNegative := by have := ht.wf.1; omega
        have hPk : min T.k q.kif.k = 0 ∨ min T.k q.kif.k = 1 := by omega
        by_contra hc
        push Not at hc
        have hw : min T.k q.kif.k + retI T q.kif + min T.f q.kif.f ≤ 0 := by omega
        have conv : ∀ v, IsKif e0.keepNegative (e0.integers - e0.keepNegative) m v → (∃ n : ℤ, v = n * (2 : ℚ) ^ (-T.f)) → v = 0 := by
          intro v hv hg
          have hv' := isKif_mono hv hk0 k1 k2 (le_refl m)
          apply isKif_width_nonpos hPk hw
          refine ⟨?_, hv'.2⟩
          rcases le_total T.f q.kif.f with hf | hf
          · rw [min_eq_left hf]; exact hg
          · rw [min_eq_right hf]
            exact grid_mono (by omega) hv.1
        exact hlive0 (ht.zero (conv _ c1 g1) (conv _ c2 g2))
      · by_cases hp : e = KBI.pruned
        · exact .inl hp
        · right
          rw [q.produced_fst]
          exact key e he hp
    exact hP

/-- A wrapping quantizer whose elements are the smallest types of ranges within the upstream type keeps its function. -/
theorem FPQ.fits_of_recorded {q : FPQ} {T : KIF} (hS : q.sat = .WRAP) (hT : T.k = 0 ∨ T.k = 1)
    (h : ∀ e ∈ q.elems, ∃ lo hi m, e.Tight lo hi m ∧ (e ≠ KBI.pruned → Within T q.kif.f lo hi)) : q.Fits T := by
  refine ⟨fun e he => by obtain ⟨_, _, _, ht, -⟩ := h e he; exact ht.wf, ?_⟩
  rcases FPQ.cases_of_recorded hT h with h' | ⟨h1, h2⟩
  · exact .inr (.inr (.inr (.inr (.inl h'))))
  · exact .inr (.inr (.inr (.inl ⟨hS, h1, h2⟩)))

theorem proxyQ_pruned {b : KIF} (h : b.k + b.i + b.f = 0) : proxyQ b = KBI.pruned := by
  unfold proxyQ KBI.init
  rw [h, if_pos rfl]
  rfl

theorem proxyQ_live {b : KIF} (h : b.k + b.i + b.f ≠ 0) : proxyQ b = ⟨b.k, b.k + b.i + b.f, b.k + b.i⟩ := by
  unfold proxyQ KBI.init
  rw [if_neg h]

theorem proxyQ_ne_pruned {b : KIF} (h : proxyQ b ≠ KBI.pruned) : b.k + b.i + b.f ≠ 0 := fun h0 => h (proxyQ_pruned h0)

/-- the quantizer made from a recorded range is tight -/
theorem tight_recorded {mn mx fbw : ℚ} (hf : -32 ≤ fbw) (hle : mn ≤ mx) (hb1 : -(2 : ℚ) ^ (32 : ℤ) ≤ mn) (hb2 : mx < (2 : ℚ) ^ (32 : ℤ))
    (g1 : ∃ n : ℤ, mn = n * (2 : ℚ) ^ (-tfRound fbw)) (g2 : ∃ n : ℤ, mx = n * (2 : ℚ) ^ (-tfRound fbw)) :
    (proxyQ (bitsExact mn mx fbw false)).Tight mn mx (tfRound fbw) := by
  have hf' : -32 ≤ tfRound fbw := tfRound_ge (by exact_mod_cast hf)
  obtain ⟨w1, w2, w3⟩ := bitsExact_wf mn mx fbw false hf'
  have c1 := bitsExact_neg_covers (mn := mn) (mx := mx) g1 le_rfl hle hb1 hb2
  have c2 := bitsExact_neg_covers (mn := mn) (mx := mx) g2 hle le_rfl hb1 hb2
  obtain ⟨a, ha⟩ := g1
  obtain ⟨b, hb⟩ := g2
  have hmin := fun k' i' hk' hw' h1 h2 => C18_minimal mn mx fbw (tfRound fbw) a b rfl ha hb hle k' i' hk' hw' h1 h2
  simp only at hmin
  generalize hr : bitsExact mn mx fbw false = r at *
  refine ⟨?_, ⟨a, ha⟩, ⟨b, hb⟩, ?_, ?_, ?_⟩
  · by_cases h0 : r.k + r.i + r.f = 0
    · rw [proxyQ_pruned h0]; exact ⟨.inl rfl, le_rfl⟩
    · rw [proxyQ_live h0]; exact ⟨w1, w2⟩
  · intro h1 h2
    apply proxyQ_pruned
    have z : IsKif 0 (-tfRound fbw) (tfRound fbw) 0 := ⟨⟨0, by simp⟩, by simp, zpow2_pos _⟩
    have := (hmin 0 (-tfRound fbw) (.inl rfl) (by omega) (by rw [h1]; exact z) (by rw [h2]; exact z)).2.1
    omega
  · intro hlive
    have h0 := proxyQ_ne_pruned hlive
    have hfr : r.f = tfRound fbw := by
      rcases w3 with h | h
      · exact h
      · rw [h] at h0; exact absurd rfl h0
    rw [proxyQ_live h0]
    simp only
    refine ⟨by omega, ?_, ?_⟩
    · rw [hfr] at c1
      rw [show r.k + r.i - r.k = r.i by omega]; exact c1
    · rw [hfr] at c2
      rw [show r.k + r.i - r.k = r.i by omega]; exact c2
  · intro hlive k' i' hk' hw' h1 h2
    have h0 := proxyQ_ne_pruned hlive
    obtain ⟨m1, -, m3⟩ := hmin k' i' hk' hw' h1 h2
    rw [proxyQ_live h0]
    simp only
    refine ⟨m1, ?_⟩
    have := m3 (by intro hc; rw [hc] at h0; exact h0 rfl)
    omega

/-- the quantizer behind a ReLU, made from the non-negative part of a recorded range, is tight -/
theorem tight_recorded_pos {mn mx fbw : ℚ} (hf : -32 ≤ fbw) (hb2 : mx < (2 : ℚ) ^ (32 : ℤ))
    (g2 : ∃ n : ℤ, mx = n * (2 : ℚ) ^ (-tfRound fbw)) :
    (proxyQ (bitsExact mn mx fbw true)).Tight 0 (max mx 0) (tfRound fbw) := by
  have hf' : -32 ≤ tfRound fbw := tfRound_ge (by exact_mod_cast hf)
  obtain ⟨w1, w2, w3⟩ := bitsExact_wf mn mx fbw true hf'
  have c2 := bitsExact_pos_covers (mn := mn) g2 le_rfl hb2
  have hmin := fun k' i' hk' hw' h2 => C18_minimal_pos_only mn mx fbw (tfRound fbw) _ rfl g2.choose_spec k' i' hk' hw' h2
  simp only at hmin
  have gmax : ∃ n : ℤ, max mx 0 = n * (2 : ℚ) ^ (-tfRound fbw) := by
    rcases le_total mx 0 with h | h
    · rw [max_eq_right h]; exact ⟨0, by simp⟩
    · rw [max_eq_left h]; exact g2
  have hk0 : (bitsExact mn mx fbw true).k = 0 := by
    unfold bitsExact maskKif
    simp
  generalize hr : bitsExact mn mx fbw true = r at *
  refine ⟨?_, ⟨0, by simp⟩, gmax, ?_, ?_, ?_⟩
  · by_cases h0 : r.k + r.i + r.f = 0
    · rw [proxyQ_pruned h0]; exact ⟨.inl rfl, le_rfl⟩
    · rw [proxyQ_live h0]; exact ⟨w1, w2⟩
  · intro _ h2
    apply proxyQ_pruned
    have z : IsKif 0 (-tfRound fbw) (tfRound fbw) 0 := ⟨⟨0, by simp⟩, by simp, zpow2_pos _⟩
    have := (hmin 0 (-tfRound fbw) (.inl rfl) (by omega) (by rw [h2]; exact z)).2
    omega
  · intro hlive
    have h0 := proxyQ_ne_pruned hlive
    have hfr : r.f = tfRound fbw := by
      rcases w3 with h | h
      · exact h
      · rw [h] at h0; exact absurd rfl h0
    rw [proxyQ_live h0]
    simp only
    rw [hfr] at c2
    rw [show r.k + r.i - r.k = r.i by omega]
    refine ⟨by omega, ⟨⟨0, by simp⟩, ?_, zpow2_pos _⟩, c2⟩
    rw [hk0]; simp
  · intro hlive k' i' hk' hw' h1 h2
    have h0 := proxyQ_ne_pruned hlive
    have hfr : r.f = tfRound fbw := by
      rcases w3 with h | h
      · exact h
      · rw [h] at h0; exact absurd rfl h0
    rw [proxyQ_live h0]
    simp only
    rcases lt_or_ge (0 + i' + tfRound fbw) 0 with hw | hw
    · exfalso
      have hz : max mx 0 = 0 := isKif_width_nonpos hk' (by omega) h2
      apply h0
      have z : IsKif 0 (-tfRound fbw) (tfRound fbw) 0 := ⟨⟨0, by simp⟩, by simp, zpow2_pos _⟩
      have := (hmin 0 (-tfRound fbw) (.inl rfl) (by omega) (by rw [hz]; exact z)).2
      omega
    · have h3 := hmin 0 i' (.inl rfl) hw ⟨h2.1, by simp, h2.2.2⟩
      omega

end HGQ
