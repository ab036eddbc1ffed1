import Verif.Lemmas.KeepsSat
import Verif.Props.PrecGraph

/-!
Quantizers made from ranges recorded on calibration samples, in a whole proxy graph: where the ranges cannot leave the upstream types,
every quantizer keeps its function when its type is derived.
-/

namespace HGQ

open Spec

theorem rnd_step (R : Rnd) (hR : R = .TRN ∨ R = .RND) (y : ℚ) (N : ℤ) :
    ((N : ℚ) ≤ y → (N : ℚ) ≤ rndMap R y) ∧ (y < N → rndMap R y ≤ N) := by
  rcases hR with rfl | rfl
  · constructor
    · intro h
      change (N : ℚ) ≤ (flr y : ℤ)
      exact_mod_cast Int.le_floor.mpr h
    · intro h
      change ((flr y : ℤ) : ℚ) ≤ N
      have : flr y < N := Int.floor_lt.mpr h
      exact_mod_cast this.le
  · constructor
    · intro h
      change (N : ℚ) ≤ (flr (y + 1 / 2) : ℤ)
      have : N ≤ flr (y + 1 / 2) := Int.le_floor.mpr (by linarith)
      exact_mod_cast this
    · intro h
      change ((flr (y + 1 / 2) : ℤ) : ℚ) ≤ N
      have : flr (y + 1 / 2) < N + 1 := Int.floor_lt.mpr (by push_cast; linarith)
      exact_mod_cast (by omega : flr (y + 1 / 2) ≤ N)

/-- Rounding a value of type `T` to `m` fractional bits: it stays on the grid of `T`, becomes negative only if `T` is signed, and
does not leave the range of `T`, except that rounding to nearest can reach `2^i`, and truncation, at steps larger than the range, can go
below `-2^i`. -/
theorem round_within {T : KIF} (hT : T.k = 0 ∨ T.k = 1) {v : ℚ} (hv : T.Holds v) (m : ℤ) {R : Rnd} (hR : R = .TRN ∨ R = .RND) {r : ℚ}
    (hr : r = rndMap R (v * p2 m) * p2 (-m)) :
    (r < 0 → T.k = 1) ∧ (∃ n : ℤ, r = n * (2 : ℚ) ^ (-T.f)) ∧
    (R = .RND ∨ T.f ≤ m ∨ T.k = 0 ∨ 0 ≤ T.i + m → -(2 : ℚ) ^ T.i ≤ r) ∧
    (r < (2 : ℚ) ^ T.i ∨ r ≤ (2 : ℚ) ^ T.i ∧ R = .RND ∧ m < T.f) := by
  obtain ⟨hg, h1, h2⟩ := hv
  change -((T.k : ℚ) * p2 T.i) ≤ v at h1
  change v < p2 T.i at h2
  change _ ∧ _ ∧ (_ → -p2 T.i ≤ r) ∧ (r < p2 T.i ∨ r ≤ p2 T.i ∧ _)
  have hpi := p2_pos T.i
  have hpm := p2_pos m
  have hpn := p2_pos (-m)
  have hlow : -p2 T.i ≤ v := by
    rcases hT with h | h <;> rw [h] at h1 <;> push_cast at h1 <;> linarith
  have hnn : T.k = 0 → 0 ≤ v := by
    intro h; rw [h] at h1; push_cast at h1; linarith
  by_cases hf : T.f ≤ m
  · -- on the grid: nothing happens
    have hrv : r = v := by
      obtain ⟨n, hn⟩ := grid_mono hf hg
      rw [hr, hn, mul_assoc, p2_neg_mul, mul_one]
      have := rnd_step R hR (n : ℚ) n
      have h3 := this.1 le_rfl
      have h4 := (rnd_step R hR (n : ℚ) (n + 1)).2 (by push_cast; linarith)
      obtain ⟨k, hk⟩ := rndMap_int R (n : ℚ)
      have h5 : rndMap R (n : ℚ) = n := by
        rcases hR with rfl | rfl
        · change ((flr (n : ℚ) : ℤ) : ℚ) = n
          unfold flr; rw [Int.floor_intCast]
        · change ((flr ((n : ℚ) + 1 / 2) : ℤ) : ℚ) = n
          have : flr ((n : ℚ) + 1 / 2) = n := Int.floor_eq_iff.mpr ⟨by linarith, by linarith⟩
          rw [this]
      rw [h5]
    rw [hrv]
    refine ⟨fun h => ?_, hg, fun _ => hlow, .inl h2⟩
    rcases hT with h' | h'
    · exact absurd (hnn h') (by linarith)
    · exact h'
  · push Not at hf
    obtain ⟨n, hn⟩ := rndMap_int R (v * p2 m)
    have hge : ∀ N : ℤ, (N : ℚ) ≤ v * p2 m → (N : ℚ) * p2 (-m) ≤ r := fun N h => by
      rw [hr]; exact mul_le_mul_of_nonneg_right ((rnd_step R hR _ N).1 h) hpn.le
    have hle : ∀ N : ℤ, v * p2 m < N → r ≤ (N : ℚ) * p2 (-m) := fun N h => by
      rw [hr]; exact mul_le_mul_of_nonneg_right ((rnd_step R hR _ N).2 h) hpn.le
    have hr0 : T.k = 0 → 0 ≤ r := fun h => by
      have := hge 0 (by push_cast; exact mul_nonneg (hnn h) hpm.le)
      simpa using this
    have hlowm : 0 ≤ T.i + m → -p2 T.i ≤ r := by
      intro h
      obtain ⟨N, hN, -⟩ := p2_int_of_nonneg h
      have e1 : p2 T.i * p2 m = N := by rw [← p2_add, hN]
      have := hge (-N) (by
        push_cast; rw [← e1]
        have := mul_le_mul_of_nonneg_right hlow hpm.le
        linarith)
      have e2 : (N : ℚ) * p2 (-m) = p2 T.i := by rw [← e1, mul_assoc, p2_mul_neg, mul_one]
      push_cast at this
      linarith
    refine ⟨fun h => ?_, grid_mono hf.le ⟨n, by rw [hr, hn]⟩, fun hc => ?_, ?_⟩
    · rcases hT with h' | h'
      · exact absurd (hr0 h') (by linarith)
      · exact h'
    · rcases hc with hc | hc | hc | hc
      · rcases le_or_gt 0 (T.i + m) with h | h
        · exact hlowm h
        · subst hc
          have hhalf : p2 T.i * p2 m ≤ 1 / 2 := by
            rw [← p2_add]
            calc p2 (T.i + m) ≤ p2 (-1) := p2_le_p2 (by omega)
              _ = 1 / 2 := by unfold p2; norm_num
          have h3 := mul_le_mul_of_nonneg_right hlow hpm.le
          have h4 : 0 ≤ flr (v * p2 m + 1 / 2) := Int.floor_nonneg.mpr (by linarith)
          have h5 : (0 : ℚ) ≤ r := by
            rw [hr]; change 0 ≤ ((flr (v * p2 m + 1 / 2) : ℤ) : ℚ) * p2 (-m)
            exact mul_nonneg (by exact_mod_cast h4) hpn.le
          linarith
      · omega
      · have := hr0 hc
        linarith
      · exact hlowm hc
    · rcases hR with hR' | hR'
      · left
        subst hR'
        have : rndMap .TRN (v * p2 m) ≤ v * p2 m := Int.floor_le _
        have := mul_le_mul_of_nonneg_right this hpn.le
        rw [mul_assoc v, p2_mul_neg, mul_one, ← hr] at this
        linarith
      · rcases le_or_gt 0 (T.i + m) with h | h
        · right
          obtain ⟨N, hN, -⟩ := p2_int_of_nonneg h
          have e1 : p2 T.i * p2 m = N := by rw [← p2_add, hN]
          have := hle N (by rw [← e1]; exact mul_lt_mul_of_pos_right h2 hpm)
          rw [← e1, mul_assoc, p2_mul_neg, mul_one] at this
          exact ⟨this, hR', hf⟩
        · left
          subst hR'
          have hhalf : p2 T.i * p2 m ≤ 1 / 2 := by
            rw [← p2_add]
            calc p2 (T.i + m) ≤ p2 (-1) := p2_le_p2 (by omega)
              _ = 1 / 2 := by unfold p2; norm_num
          have h3 := mul_lt_mul_of_pos_right h2 hpm
          have h4 : flr (v * p2 m + 1 / 2) < 1 := Int.floor_lt.mpr (by push_cast; linarith)
          have h5 : r ≤ 0 := by
            rw [hr]; change ((flr (v * p2 m + 1 / 2) : ℤ) : ℚ) * p2 (-m) ≤ 0
            exact mul_nonpos_of_nonpos_of_nonneg (by exact_mod_cast (by omega : flr (v * p2 m + 1 / 2) ≤ 0)) hpn.le
          linarith

/-- Conditions on the widths of a quantizer behind the type `T` under which ranges recorded from values of `T` cannot make its
derivation lossy. Every element that is not pruned, of `m` fractional bits: when it rounds to nearest it is at least as fine as `T`, or
all elements are coarser than `T`; when it truncates it is at least as fine as `T`, or `T` is unsigned, or its step is within the
range of `T`. -/
def FPQ.Mild (q : FPQ) (T : KIF) : Prop :=
  ∀ e ∈ q.elems, e ≠ KBI.pruned →
    (q.rnd = .RND → T.f ≤ e.bits - e.integers ∨ q.kif.f < T.f) ∧
    (q.rnd = .TRN → T.f ≤ e.bits - e.integers ∨ T.k = 0 ∨ 0 ≤ T.i + (e.bits - e.integers))

/-- the value `r` is zero or was reached by rounding an input of the layer at `n` on one of the samples -/
def PGraph.Reached (g : PGraph) (D : List (ℕ → List ℚ)) (n : ℕ) (R : Rnd) (m : ℤ) (r : ℚ) : Prop :=
  r = 0 ∨ ∃ xs ∈ D, ∃ p, r = rndMap R (at0 (((g.ins n).map (g.value xs)).headD []) p * p2 m) * p2 (-m)

/-- The layer at `n` is a quantizer with overflow mode `S` made from ranges recorded on the samples: the ends of the range of every element were reached, and
the outputs on the samples are in the range. -/
def PGraph.RecordedAt (g : PGraph) (S : Sat) (D : List (ℕ → List ℚ)) (n : ℕ) : Prop :=
  ∃ q o s, g.lay n = some (.quant q o s) ∧ q.sat = S ∧ Compat o s ∧ q.elems.length = prodL s ∧
    (q.rnd = .TRN ∨ q.rnd = .RND) ∧
    ∀ e < prodL s, ∃ lo hi m, (q.elems.getD e KBI.pruned).Tight lo hi m ∧ lo ≤ hi ∧ g.Reached D n q.rnd m lo ∧
      g.Reached D n q.rnd m hi ∧ ∀ xs ∈ D, ∀ p < prodL o, elemOf o s p = e → lo ≤ at0 (g.value xs n) p ∧ at0 (g.value xs n) p ≤ hi

theorem Within.of_reached {q : FPQ} {T : KIF} (hT : T.k = 0 ∨ T.k = 1) {e : KBI} (hR : q.rnd = .TRN ∨ q.rnd = .RND)
    {lo hi : ℚ} {m : ℤ} (hm : e.bits - e.integers = m)
    (hc : (q.rnd = .RND → T.f ≤ e.bits - e.integers ∨ q.kif.f < T.f) ∧
      (q.rnd = .TRN → T.f ≤ e.bits - e.integers ∨ T.k = 0 ∨ 0 ≤ T.i + (e.bits - e.integers)))
    (hle : lo ≤ hi) (h1 : lo = 0 ∨ ∃ v, T.Holds v ∧ lo = rndMap q.rnd (v * p2 m) * p2 (-m))
    (h2 : hi = 0 ∨ ∃ v, T.Holds v ∧ hi = rndMap q.rnd (v * p2 m) * p2 (-m)) : Within T q.kif.f lo hi := by
  have hp : (0 : ℚ) < (2 : ℚ) ^ T.i := zpow2_pos _
  have key : ∀ r, (r = 0 ∨ ∃ v, T.Holds v ∧ r = rndMap q.rnd (v * p2 m) * p2 (-m)) →
      (r < 0 → T.k = 1) ∧ (∃ n : ℤ, r = n * (2 : ℚ) ^ (-T.f)) ∧ -(2 : ℚ) ^ T.i ≤ r ∧
      (r < (2 : ℚ) ^ T.i ∨ r ≤ (2 : ℚ) ^ T.i ∧ q.kif.f < T.f) := by
    rintro r (rfl | ⟨v, hv, hr⟩)
    · exact ⟨fun h => absurd h (lt_irrefl _), ⟨0, by simp⟩, by linarith, .inl hp⟩
    · obtain ⟨a1, a2, a3, a4⟩ := round_within hT hv m hR hr
      refine ⟨a1, a2, a3 ?_, ?_⟩
      · rcases hR with h | h
        · rcases hc.2 h with h' | h' | h'
          · exact .inr (.inl (by omega))
          · exact .inr (.inr (.inl h'))
          · exact .inr (.inr (.inr (by omega)))
        · exact .inl h
      · rcases a4 with h | ⟨h, h', h''⟩
        · exact .inl h
        · rcases hc.1 h' with h3 | h3
          · omega
          · exact .inr ⟨h, h3⟩
  obtain ⟨b1, b2, b3, -⟩ := key lo h1
  obtain ⟨-, c2, -, c4⟩ := key hi h2
  exact ⟨hle, b1, b3, c4, b2, c2⟩

/-- every layer of the graph fits, or is a quantizer from recorded ranges (one of the layers `P`) that meets the conditions on widths -/
def PGraph.MildFits (g : PGraph) (P : ℕ → Prop) : Prop :=
  ∀ n l, g.lay n = some l → l.Fits (g.inTypes n) ∨
    P n ∧ ∃ q o s, l = .quant q o s ∧ q.Mild ((g.inTypes n).headD infKif)

/-- the recorded ranges of the elements of a quantizer with mild widths cannot leave the upstream type -/
theorem PGraph.RecordedAt.within {g : PGraph} {S : Sat} {D : List (ℕ → List ℚ)} {n : ℕ} (h : g.RecordedAt S D n) {q : FPQ} {o s : List ℕ}
    (hl : g.lay n = some (.quant q o s)) {T : KIF} (hT : T.k = 0 ∨ T.k = 1) (hm : q.Mild T)
    (hins : ∀ xs ∈ D, ∀ p, T.Holds (at0 (((g.ins n).map (g.value xs)).headD []) p)) :
    q.sat = S ∧ Compat o s ∧ q.elems.length = prodL s ∧ ∀ e < prodL s, ∃ lo hi m, (q.elems.getD e KBI.pruned).Tight lo hi m ∧
      (q.elems.getD e KBI.pruned ≠ KBI.pruned → Within T q.kif.f lo hi) ∧
      ∀ xs ∈ D, ∀ p < prodL o, elemOf o s p = e → lo ≤ at0 (g.value xs n) p ∧ at0 (g.value xs n) p ≤ hi := by
  obtain ⟨q', o', s', hl', hS, hc, hlen, hR, hrec⟩ := h
  rw [hl] at hl'
  simp only [Option.some.injEq, PLay.quant.injEq] at hl'
  obtain ⟨rfl, rfl, rfl⟩ := hl'
  refine ⟨hS, hc, hlen, fun e he => ?_⟩
  obtain ⟨lo, hi, m, ht, hle, r1, r2, hv⟩ := hrec e he
  refine ⟨lo, hi, m, ht, fun hlive => ?_, hv⟩
  have hmem : q.elems.getD e KBI.pruned ∈ q.elems := by
    rw [getD_lt _ _ (by omega)]; exact List.getElem_mem _
  have conv : ∀ r, g.Reached D n q.rnd m r → r = 0 ∨ ∃ v, T.Holds v ∧ r = rndMap q.rnd (v * p2 m) * p2 (-m) := by
    rintro r (hr | ⟨xs, hxs, p, hr⟩)
    · exact .inl hr
    · exact .inr ⟨_, hins xs hxs p, hr⟩
  exact Within.of_reached hT hR (ht.live hlive).1 (hm _ hmem hlive) hle (conv _ r1) (conv _ r2)

/-- a statement about all elements of a list, by position -/
theorem forall_mem_of_getD {α : Type} {l : List α} {d : α} {P : α → Prop} {n : ℕ} (hn : l.length = n) (h : ∀ e < n, P (l.getD e d)) :
    ∀ a ∈ l, P a := by
  intro a ha
  obtain ⟨i, hi, rfl⟩ := List.getElem_of_mem ha
  have := h i (by omega)
  rwa [getD_lt _ _ hi] at this

/-- The layer behind inbound layers of types `ts` answers consistently, and on inputs of the types among `insD` its outputs are values
of the answered type and are not changed by asking. -/
def PLay.Keeps (l : PLay) (ts : List KIF) (insD : List (List (List ℚ))) : Prop :=
  ((l.kif ts).k = 0 ∨ (l.kif ts).k = 1) ∧ (l.after ts).kif ts = l.kif ts ∧ (l.after ts).after ts = l.after ts ∧
  (l ≠ .input → ∀ ins ∈ insD, InsHold ts ins → (l.kif ts).HoldsAll (l.eval ins) ∧ (l.after ts).eval ins = l.eval ins)

/-- every layer, on the values it takes on the samples -/
def PGraph.KeepsOn (g : PGraph) (D : List (ℕ → List ℚ)) : Prop := ∀ n l, g.lay n = some l →
  l.Keeps (g.inTypes n) (D.map fun xs => (g.ins n).map (g.value xs))

theorem PLay.Fits.keeps {l : PLay} {ts : List KIF} (h : l.Fits ts) (hk : ∀ t ∈ ts, t.k = 0 ∨ t.k = 1) (insD : List (List (List ℚ))) :
    l.Keeps ts insD :=
  ⟨PLay.kif_k01 h hk, (PLay.idem h hk).1, (PLay.idem h hk).2, fun hi _ _ hh => PLay.sound h hk hi hh⟩

/-- a saturating quantizer made from recorded ranges within the upstream type, on samples whose outputs are in the ranges -/
theorem PLay.keeps_sat {q : FPQ} {o s : List ℕ} {ts : List KIF} (hk : ∀ t ∈ ts, t.k = 0 ∨ t.k = 1) (hS : q.sat = .SAT)
    (hc : Compat o s) (hlen : q.elems.length = prodL s)
    (insD : List (List (List ℚ)))
    (h : ∀ e < prodL s, ∃ lo hi m, (q.elems.getD e KBI.pruned).Tight lo hi m ∧
      (q.elems.getD e KBI.pruned ≠ KBI.pruned → Within (ts.headD infKif) q.kif.f lo hi) ∧
      ∀ ins ∈ insD, ∀ p < prodL o, elemOf o s p = e →
        lo ≤ at0 ((PLay.quant q o s).eval ins) p ∧ at0 ((PLay.quant q o s).eval ins) p ≤ hi) :
    (PLay.quant q o s).Keeps ts insD := by
  have hT := headD_k01 hk
  have hwithin : ∀ e ∈ q.elems, ∃ lo hi m, e.Tight lo hi m ∧ (e ≠ KBI.pruned → Within (ts.headD infKif) q.kif.f lo hi) :=
    forall_mem_of_getD hlen (P := fun e => ∃ lo hi m, e.Tight lo hi m ∧ (e ≠ KBI.pruned → Within (ts.headD infKif) q.kif.f lo hi))
      fun e he => by obtain ⟨lo, hi, m, h1, h2, -⟩ := h e he; exact ⟨lo, hi, m, h1, h2⟩
  rcases FPQ.cases_of_recorded hT hwithin with hcov | ⟨hw, hall⟩
  · have hf : (PLay.quant q o s).Fits ts :=
      ⟨hc, hlen, fun e he => by obtain ⟨_, _, _, ht, -⟩ := hwithin e he; exact ht.wf,
        .inr (.inr (.inr (.inr (.inl hcov))))⟩
    exact hf.keeps hk insD
  · have hel : ∀ e ∈ q.elems, (e.keepNegative = 0 ∨ e.keepNegative = 1) ∧ 0 ≤ e.bits := fun e he => by
      obtain ⟨_, _, _, ht, -⟩ := hwithin e he; exact ht.wf
    have hne : q.elems ≠ [] := by
      intro h0
      have := prodL_pos_of_compat hc
      rw [← hlen, h0] at this
      simp at this
    have hid := FPQ.idem_elems hne hel hT hw hall
    have hkk := FPQ.kif_k01 hel
    refine ⟨?_, ?_, ?_, fun _ ins hins hh => ?_⟩
    · simp only [PLay.kif, FPQ.produced_fst]
      omega
    · simp only [PLay.after, PLay.kif]; rw [hid]
    · simp only [PLay.after]; rw [hid]
    · have key : ∀ p < prodL o,
          (q.produced (ts.headD infKif)).2.call (elemOf o s p) (at0 (ins.headD []) p) = q.call (elemOf o s p) (at0 (ins.headD []) p) ∧
          (q.produced (ts.headD infKif)).1.Holds (q.call (elemOf o s p) (at0 (ins.headD []) p)) := by
        intro p hp
        have he := elemOf_lt hc hp
        obtain ⟨lo, hi, m, ht, hwi, hv⟩ := h _ he
        rw [getD_lt _ _ (by omega)] at ht hwi
        refine FPQ.keeps_sat q _ hel hT hS hw hall _ (hh.head.at0 (by omega) p) _ (by omega) fun hlive => ?_
        obtain ⟨-, -, -, -, g1, g2⟩ := hwi hlive
        obtain ⟨hm, c1, c2⟩ := ht.live hlive
        have hv := hv ins hins p hp rfl
        have e1 : at0 ((PLay.quant q o s).eval ins) p = q.call (elemOf o s p) (at0 (ins.headD []) p) := by
          simp only [PLay.eval, at0]
          rw [getD_lt _ _ (by simpa using hp)]
          simp
        rw [e1] at hv
        rw [← hm] at c1 c2
        exact ⟨lo, hi, g1, g2, c1, c2, hv.1, hv.2⟩
      constructor
      · intro v hv
        obtain ⟨p, hp, rfl⟩ := List.mem_map.mp hv
        exact (key p (List.mem_range.mp hp)).2
      · simp only [PLay.after, PLay.eval]
        apply List.map_congr_left
        intro p hp
        exact (key p (List.mem_range.mp hp)).1

section
variable {g : PGraph} (hwf : g.WF) {D : List (ℕ → List ℚ)} (hD : ∀ xs ∈ D, ∀ n, infKif.HoldsAll (xs n))
include hwf hD

/-- every layer answers consistently on the samples, and the answered types hold the values on the samples -/
theorem keepsOn_of {C : ℕ → PLay → Prop}
    (h : ∀ n l, g.lay n = some l → (∀ t ∈ g.inTypes n, t.k = 0 ∨ t.k = 1) →
      (∀ xs ∈ D, InsHold (g.inTypes n) ((g.ins n).map (g.value xs))) →
      l.Keeps (g.inTypes n) (D.map fun xs => (g.ins n).map (g.value xs)) ∧ C n l) :
    g.KeepsOn D ∧ (∀ n l, g.lay n = some l → C n l) ∧ ∀ n, ∀ xs ∈ D, (g.typeOf n).HoldsAll (g.value xs n) := by
  have main : ∀ n, (∀ l, g.lay n = some l → l.Keeps (g.inTypes n) (D.map fun xs => (g.ins n).map (g.value xs)) ∧ C n l) ∧
      ((g.typeOf n).k = 0 ∨ (g.typeOf n).k = 1) ∧ ∀ xs ∈ D, (g.typeOf n).HoldsAll (g.value xs n) := by
    intro n
    induction n using Nat.strong_induction_on with
    | _ n ih =>
      have hk01 : ∀ t ∈ g.inTypes n, t.k = 0 ∨ t.k = 1 := by
        intro t ht
        obtain ⟨m, hm, rfl⟩ := List.mem_map.mp ht
        exact (ih m (hwf n m hm)).2.1
      have hins : ∀ xs ∈ D, InsHold (g.inTypes n) ((g.ins n).map (g.value xs)) := by
        intro xs hxs
        unfold PGraph.inTypes InsHold
        rw [List.forall₂_map_left_iff, List.forall₂_map_right_iff, List.forall₂_same]
        intro m hm
        exact (ih m (hwf n m hm)).2.2 xs hxs
      refine ⟨fun l hl => h n l hl hk01 hins, ?_, ?_⟩
      · cases hl : g.lay n with
        | none => rw [PGraph.typeOf_none hl]; right; rfl
        | some l =>
          rw [PGraph.typeOf_eq hwf hl]
          exact (h n l hl hk01 hins).1.1
      · intro xs hxs
        cases hl : g.lay n with
        | none => rw [PGraph.value_none hl]; intro v hv; cases hv
        | some l =>
          rw [PGraph.typeOf_eq hwf hl]
          by_cases hi : l = .input
          · subst hi; rw [PGraph.value_input hl]; exact hD xs hxs n
          · rw [PGraph.value_eq hwf hl hi]
            exact ((h n l hl hk01 hins).1.2.2.2 hi _ (List.mem_map.mpr ⟨xs, hxs, rfl⟩) (hins xs hxs)).1
  exact ⟨fun n l hl => ((main n).1 l hl).1, fun n l hl => ((main n).1 l hl).2, fun n => (main n).2.2⟩

/-- C89 on samples: if every layer keeps its outputs on the samples, the function of the model on the samples does not
change when precisions are registered. -/
theorem registration_keeps_samples (h : g.KeepsOn D) (off : Option ℤ) (ns : List ℕ) {xs : ℕ → List ℚ} (hxs : xs ∈ D) :
    (registerAll off ns ⟨g, []⟩).2.graph.eval xs = g.eval xs := by
  have hold := (keepsOn_of hwf hD (C := fun _ _ => True) fun n l hl _ _ => ⟨h n l hl, trivial⟩).2.2
  have hid : g.Idem := fun n l hl => ⟨(h n l hl).2.1, (h n l hl).2.2.1⟩
  have hb := Between.registerAll_of hwf hid off ns ⟨g, []⟩ (Between.refl g)
  generalize (registerAll off ns ⟨g, []⟩).2.graph = g' at hb
  refine PGraph.eval_ext hb.1 xs fun n => ?_
  have hwf' : g'.WF := fun n m hm => hwf n m (by rwa [hb.ins n] at hm)
  induction n using Nat.strong_induction_on with
  | _ n ih =>
    cases hl : g.lay n with
    | none =>
      rw [PGraph.value_none hl, PGraph.value_none]
      unfold PGraph.lay; rw [hb.at_none hl]; rfl
    | some l =>
      obtain ⟨l', h1, h2⟩ := hb.2 n l hl
      have hl' : g'.lay n = some l' := g'.lay_of h1
      by_cases hi : l = .input
      · subst hi
        have : l' = .input := by rcases h2 with rfl | rfl <;> rfl
        subst this
        rw [PGraph.value_input hl, PGraph.value_input hl']
      · have hi' : l' ≠ .input := by
          rcases h2 with rfl | rfl
          · exact hi
          · intro h; apply hi
            cases l <;> simp [PLay.after] at h ⊢
        rw [PGraph.value_eq hwf hl hi, PGraph.value_eq hwf' hl' hi', hb.ins n]
        have hm : (g.ins n).map (g'.value xs) = (g.ins n).map (g.value xs) :=
          List.map_congr_left fun m hm => ih m (hwf n m hm)
        rw [hm]
        rcases h2 with rfl | rfl
        · rfl
        · refine ((h n l hl).2.2.2 hi _ (List.mem_map.mpr ⟨xs, hxs, rfl⟩) ?_).2
          unfold PGraph.inTypes InsHold
          rw [List.forall₂_map_left_iff, List.forall₂_map_right_iff, List.forall₂_same]
          intro m _
          exact hold m xs hxs

/-- on the samples every layer keeps its function, if the widths of the quantizers made from recorded ranges are mild -/
theorem keeps_of_mild {P : ℕ → Prop} {S : Sat} (hS' : S = .WRAP ∨ S = .SAT) (hP : ∀ n, P n → g.RecordedAt S D n) (h : g.MildFits P) : g.KeepsOn D := by
  refine (keepsOn_of hwf hD (C := fun _ _ => True) fun n l hl hk hins => ⟨?_, trivial⟩).1
  rcases h n l hl with hf | ⟨hp, q, o, s, rfl, hmild⟩
  · exact hf.keeps hk _
  · have hT := headD_k01 hk
    obtain ⟨hS, hc, hlen, hrec⟩ := (hP n hp).within hl hT hmild fun xs hxs p => (hins xs hxs).head.at0 (by omega) p
    rcases hS' with rfl | rfl
    · have hf : (PLay.quant q o s).Fits (g.inTypes n) := ⟨hc, hlen, FPQ.fits_of_recorded hS hT (forall_mem_of_getD hlen fun e he => by
        obtain ⟨lo, hi, m, h1, h2, -⟩ := hrec e he; exact ⟨lo, hi, m, h1, h2⟩)⟩
      exact hf.keeps hk _
    · refine PLay.keeps_sat hk hS hc hlen _ fun e he => ?_
      obtain ⟨lo, hi, m, h1, h2, h3⟩ := hrec e he
      refine ⟨lo, hi, m, h1, h2, fun ins hins' p hp he' => ?_⟩
      obtain ⟨xs, hxs, rfl⟩ := List.mem_map.mp hins'
      have := h3 xs hxs p hp he'
      rwa [PGraph.value_eq hwf hl (by simp)] at this

/-- if overflow wraps, every layer keeps its function on all inputs -/
theorem fits_of_mild {P : ℕ → Prop} (hP : ∀ n, P n → g.RecordedAt .WRAP D n) (h : g.MildFits P) : g.Fits := by
  refine (keepsOn_of hwf hD (C := fun n l => l.Fits (g.inTypes n)) fun n l hl hk hins => ?_).2.1
  have : l.Fits (g.inTypes n) := by
    rcases h n l hl with hf | ⟨hp, q, o, s, rfl, hmild⟩
    · exact hf
    · have hT := headD_k01 hk
      obtain ⟨hS, hc, hlen, hrec⟩ := (hP n hp).within hl hT hmild fun xs hxs p => (hins xs hxs).head.at0 (by omega) p
      refine ⟨hc, hlen, FPQ.fits_of_recorded hS hT ?_⟩
      exact forall_mem_of_getD hlen fun e he => by obtain ⟨lo, hi, m, h1, h2, -⟩ := hrec e he; exact ⟨lo, hi, m, h1, h2⟩
  exact ⟨this.keeps hk _, this⟩

end

end HGQ
