import Verif.Lemmas.Attained
import Verif.Lemmas.FitsRange
import Verif.Props.Net

/-!
C103: what calibration records depends only on the set of samples, and grows with it.
-/

namespace HGQ

open Spec

theorem Ext.antisymm {s s' : QState} (h : Ext s s') (h' : Ext s' s) : s.mn = s'.mn ∧ s.mx = s'.mx :=
  ⟨funext fun e => le_antisymm (h'.mn e) (h.mn e), funext fun e => le_antisymm (h.mx e) (h'.mx e)⟩

theorem Ext.adjust {s s' : QState} (h : Ext s s') (nd : Node) : Ext (nd.adjust s) (nd.adjust s') := by
  unfold Node.adjust
  split
  · exact ⟨h.fbw, fun _ => le_rfl, fun _ => le_rfl⟩
  · exact ⟨h.fbw, fun e => max_le_max_right _ (h.mn e), fun e => min_le_min_right _ (h.mx e)⟩
  · exact ⟨h.fbw, fun e => max_le_max_right _ (h.mn e), fun e => min_le_min_right _ (h.mx e)⟩
  · exact h

/-- a range reached on samples that are in the other range is contained in it -/
theorem node_ext {nd : Node} {q : QSite} (hq : nd.site = some q) {s s' : QState} (hf : s'.fbw = s.fbw) {D : List (List (List ℚ))}
    (ha : nd.Attained s D) (hr : ∀ ins ∈ D, nd.InRange s' ins) : Ext s s' := by
  refine ⟨hf, fun e => ?_, fun e => ?_⟩
  · cases hm : s.mn e with
    | top => exact le_top
    | coe v =>
      obtain ⟨ins, hi, p, hp, rfl, hv⟩ := (ha q hq e).1 v hm
      have := (hr ins hi q hq p hp).1
      rw [hf, hv] at this
      exact this
  · cases hm : s.mx e with
    | bot => exact bot_le
    | coe v =>
      obtain ⟨ins, hi, p, hp, rfl, hv⟩ := (ha q hq e).2 v hm
      have := (hr ins hi q hq p hp).2
      rw [hf, hv] at this
      exact this

theorem net_ext : ∀ {net : Net} {ss ss' : List QState} {D : List (List (List ℚ))}, net.Attained ss D → (∀ x ∈ D, net.InRange ss' x) →
    ss'.map QState.fbw = ss.map QState.fbw → ∀ (j : ℕ) (nd : Node) (ins : List ℕ) (q : QSite) (s s' : QState), net[j]? = some (nd, ins) →
      nd.site = some q → ss[j]? = some s → ss'[j]? = some s' → Ext s s'
  | [], _, _, _, _, _, _, j, _, _, _, _, _, h, _, _, _ => by simp at h
  | (nd0, ins0) :: net, [], _, _, _, _, _, _, _, _, _, _, _, _, _, h, _ => by simp at h
  | (nd0, ins0) :: net, s0 :: ss, [], _, _, _, _, _, _, _, _, _, _, _, _, _, h => by simp at h
  | (nd0, ins0) :: net, s0 :: ss, s0' :: ss', D, ha, hr, hf, j, nd, ins, q, s, s', hn, hq, hs, hs' => by
    simp only [List.map_cons, List.cons.injEq] at hf
    cases j with
    | zero =>
      simp only [List.getElem?_cons_zero, Option.some.injEq, Prod.mk.injEq] at hn hs hs'
      obtain ⟨rfl, rfl⟩ := hn
      subst hs hs'
      refine node_ext hq hf.1 ha.1 ?_
      intro i hi
      obtain ⟨x, hx, rfl⟩ := List.mem_map.mp hi
      exact (hr x hx).1
    | succ j =>
      simp only [List.getElem?_cons_succ] at hn hs hs'
      refine net_ext ha.2 ?_ hf.2 j nd ins q s s' hn hq hs hs'
      intro y hy
      obtain ⟨x, hx, rfl⟩ := List.mem_map.mp hy
      have := (hr x hx).2
      rwa [hf.1] at this

theorem adjustAll_getElem {net : Net} {ss : List QState} {j : ℕ} {nd : Node} {ins : List ℕ} {t : QState} (hn : net[j]? = some (nd, ins))
    (h : (adjustAll net ss)[j]? = some t) : ∃ s, ss[j]? = some s ∧ t = nd.adjust s := by
  unfold adjustAll at h
  rw [List.getElem?_zipWith, hn] at h
  cases hs : ss[j]? with
  | none => simp [hs] at h
  | some s => simp [hs] at h; exact ⟨s, rfl, h.symm⟩

/-- the states recorded before the final adjustment -/
theorem trace_states {net : Net} {ss : List QState} (hw : net.All Node.WF ss) {bsz : ℕ} (hb : 0 < bsz) (data : List (List (List ℚ))) :
    ∃ s1, net.trace ss bsz data = .ok (adjustAll net s1, data.map (net.evalEnv (ss.map QState.fbw))) ∧
      s1.map QState.fbw = ss.map QState.fbw ∧ net.Attained s1 data ∧ ∀ x ∈ data, net.InRange s1 x := by
  obtain ⟨r1, -, r3⟩ := reset_all hw
  have hc := all_imp (fun _ _ h => Node.WF.clip h) r1
  obtain ⟨s1, h1, h2, -, h4, -⟩ := net.callBatches_spec true (chunks bsz data) (ss.map QState.reset) hc
  have ha := Net.Attained.batches hc (Net.Attained.reset net ss) h1
  rw [chunks_flatten bsz hb] at h1 h4 ha
  rw [List.nil_append] at ha
  refine ⟨s1, ?_, by rw [h2.fbw, r3], ha, h4 rfl⟩
  unfold Net.trace
  rw [h1, r3]
  rfl

/-- **C103**, ranges. Trace one model on two datasets, of which the second contains every sample of the first: any order, any batch sizes,
any repetitions. At every layer with a quantizer the second trace has the same bitwidths and at least the ranges of the first. -/
theorem C103_more_data_ranges (net : Net) (ss : List QState) (hw : net.All Node.WF ss) (bsz bsz' : ℕ) (hb : 0 < bsz) (hb' : 0 < bsz')
    (data data' : List (List (List ℚ))) (hsub : ∀ x ∈ data, x ∈ data') :
    ∃ t p t' p', net.trace ss bsz data = .ok (t, p) ∧ net.trace ss bsz' data' = .ok (t', p') ∧
      ∀ (j : ℕ) (nd : Node) (ins : List ℕ) (q : QSite) (s s' : QState), net[j]? = some (nd, ins) → nd.site = some q → t[j]? = some s →
        t'[j]? = some s' → s'.fbw = s.fbw ∧ ∀ e, s'.mn e ≤ s.mn e ∧ s.mx e ≤ s'.mx e := by
  obtain ⟨s1, h1, f1, a1, -⟩ := trace_states hw hb data
  obtain ⟨s2, h2, f2, -, r2⟩ := trace_states hw hb' data'
  refine ⟨_, _, _, _, h1, h2, ?_⟩
  intro j nd ins q s s' hn hq hs hs'
  obtain ⟨u, hu, rfl⟩ := adjustAll_getElem hn hs
  obtain ⟨u', hu', rfl⟩ := adjustAll_getElem hn hs'
  have := (net_ext a1 (fun x hx => r2 x (hsub x hx)) (f2.trans f1.symm) j nd ins q u u' hn hq hu hu').adjust nd
  exact ⟨this.fbw, fun e => ⟨this.mn e, this.mx e⟩⟩

/-- **C103**, order and repetition. If both datasets have the same samples, both traces record the same ranges. -/
theorem C103_same_samples (net : Net) (ss : List QState) (hw : net.All Node.WF ss) (bsz bsz' : ℕ) (hb : 0 < bsz) (hb' : 0 < bsz')
    (data data' : List (List (List ℚ))) (hsame : ∀ x, x ∈ data ↔ x ∈ data') :
    ∃ t p t' p', net.trace ss bsz data = .ok (t, p) ∧ net.trace ss bsz' data' = .ok (t', p') ∧
      ∀ (j : ℕ) (nd : Node) (ins : List ℕ) (q : QSite) (s s' : QState), net[j]? = some (nd, ins) → nd.site = some q → t[j]? = some s →
        t'[j]? = some s' → s = s' := by
  obtain ⟨t, p, t', p', h1, h2, h3⟩ := C103_more_data_ranges net ss hw bsz bsz' hb hb' data data' fun x hx => (hsame x).mp hx
  obtain ⟨u', o', u, o, g2, g1, g3⟩ := C103_more_data_ranges net ss hw bsz' bsz hb' hb data' data fun x hx => (hsame x).mpr hx
  rw [h1] at g1; rw [h2] at g2
  cases g1; cases g2
  refine ⟨t, p, t', p', h1, h2, ?_⟩
  intro j nd ins q s s' hn hq hs hs'
  obtain ⟨a, b⟩ := h3 j nd ins q s s' hn hq hs hs'
  obtain ⟨-, b'⟩ := g3 j nd ins q s' s hn hq hs' hs
  obtain ⟨f, m, x⟩ := s
  obtain ⟨f', m', x'⟩ := s'
  simp only at a b b'
  subst a
  congr 1
  · exact funext fun e => le_antisymm (b' e).1 (b e).1
  · exact funext fun e => le_antisymm (b e).2 (b' e).2

theorem maskKif_sum {k i f : ℤ} (h : (maskKif k i f).k + (maskKif k i f).i + (maskKif k i f).f = 0) : maskKif k i f = ⟨0, 0, 0⟩ := by
  unfold maskKif at h ⊢
  split_ifs at h ⊢ with h0
  · simp only [mul_one] at h; omega
  · simp

theorem bitsExact_sum {mn mx fbw : ℚ} {p : Bool} (h : (bitsExact mn mx fbw p).k + (bitsExact mn mx fbw p).i + (bitsExact mn mx fbw p).f = 0) :
    bitsExact mn mx fbw p = ⟨0, 0, 0⟩ := by
  unfold bitsExact at h ⊢
  cases p
  · exact maskKif_sum h
  · exact maskKif_sum h

theorem isKif_zero_type {v : ℚ} (h : IsKif 0 0 0 v) : v = 0 := by
  obtain ⟨⟨n, rfl⟩, h1, h2⟩ := h
  simp only [Int.cast_zero, zero_mul, neg_zero, zpow_zero, mul_one] at h1 h2 ⊢
  have h3 : (0 : ℤ) ≤ n := by exact_mod_cast h1
  have h4 : n < 1 := by exact_mod_cast h2
  have : n = 0 := by omega
  simp [this]

theorem isKif_of_zero {k : ℤ} (hk : k = 0 ∨ k = 1) (i f : ℤ) : IsKif k i f 0 := by
  refine ⟨⟨0, by simp⟩, ?_, zpow2_pos _⟩
  have := zpow2_pos i
  rcases hk with rfl | rfl <;> simp <;> positivity

/-- a wider recorded range gives a type that contains the old one -/
theorem types_grow {lo hi lo' hi' fbw : ℚ} (hf : -32 ≤ fbw) (g1 : ∃ n : ℤ, lo = n * p2 (-tfRound fbw))
    (g2 : ∃ n : ℤ, hi = n * p2 (-tfRound fbw)) (h1 : lo' ≤ lo) (h2 : lo ≤ hi) (h3 : hi ≤ hi') (b1 : -p2 32 ≤ lo') (b2 : hi' < p2 32)
    (posOnly : Bool) (v : ℚ)
    (h : IsKif (bitsExact lo hi fbw posOnly).k (bitsExact lo hi fbw posOnly).i (bitsExact lo hi fbw posOnly).f v) :
    IsKif (bitsExact lo' hi' fbw posOnly).k (bitsExact lo' hi' fbw posOnly).i (bitsExact lo' hi' fbw posOnly).f v := by
  have hf' : -32 ≤ tfRound fbw := tfRound_ge (by exact_mod_cast hf)
  obtain ⟨w1, w2, w3⟩ := bitsExact_wf lo hi fbw posOnly hf'
  obtain ⟨w1', w2', w3'⟩ := bitsExact_wf lo' hi' fbw posOnly hf'
  by_cases h0 : bitsExact lo hi fbw posOnly = ⟨0, 0, 0⟩
  · rw [h0] at h
    rw [isKif_zero_type h]
    exact isKif_of_zero w1' _ _
  have hfr : (bitsExact lo hi fbw posOnly).f = tfRound fbw := w3.resolve_right h0
  cases posOnly with
  | false =>
    have c1 := bitsExact_neg_covers (mn := lo') (mx := hi') g1 h1 (h2.trans h3) b1 b2
    have c2 := bitsExact_neg_covers (mn := lo') (mx := hi') g2 (h1.trans h2) h3 b1 b2
    obtain ⟨a, ha⟩ := g1
    obtain ⟨b, hb⟩ := g2
    have hmin := fun k' i' hk' hw' h1 h2 => C18_minimal lo hi fbw (tfRound fbw) a b rfl ha hb ‹lo ≤ hi› k' i' hk' hw' h1 h2
    rcases w3' with w3' | w3'
    · obtain ⟨m1, -, m3⟩ := hmin _ _ w1' (by rw [← w3']; exact w2') (by rw [← w3']; exact c1) (by rw [← w3']; exact c2)
      exact isKif_mono h (by omega) m1 (m3 h0) (by rw [hfr, w3'])
    · rw [w3'] at c1 c2
      have z1 := isKif_zero_type c1
      have z2 := isKif_zero_type c2
      have := (hmin 0 (-tfRound fbw) (.inl rfl) (by omega) (by rw [z1]; exact isKif_of_zero (.inl rfl) _ _)
        (by rw [z2]; exact isKif_of_zero (.inl rfl) _ _)).2.1
      exact absurd (bitsExact_sum (by omega)) h0
  | true =>
    have c2 := bitsExact_pos_covers (mn := lo') (mx := hi') g2 h3 b2
    obtain ⟨b, hb⟩ := g2
    have hmin := fun k' i' hk' hw' h2 => C18_minimal_pos_only lo hi fbw (tfRound fbw) b rfl hb k' i' hk' hw' h2
    have hk0 : ∀ mn mx, (bitsExact mn mx fbw true).k = 0 := by intro mn mx; unfold bitsExact maskKif; simp
    rcases w3' with w3' | w3'
    · obtain ⟨m1, m2⟩ := hmin _ _ w1' (by rw [← w3']; exact w2') (by rw [← w3']; exact c2)
      refine isKif_mono h (by omega) m1 ?_ (by rw [hfr, w3'])
      rw [hk0, hk0, hfr] at m2
      omega
    · rw [w3'] at c2
      have := (hmin 0 (-tfRound fbw) (.inl rfl) (by omega) (by rw [isKif_zero_type c2]; exact isKif_of_zero (.inl rfl) _ _)).2
      exact absurd (bitsExact_sum (by omega)) h0

theorem all_get : ∀ {net : Net} {ss : List QState} {P : Node → QState → Prop}, net.All P ss → ∀ {j : ℕ} {nd : Node} {ins : List ℕ} {s : QState},
    net[j]? = some (nd, ins) → ss[j]? = some s → P nd s
  | [], _, _, _, j, _, _, _, h, _ => by simp at h
  | _ :: _, [], _, h, _, _, _, _, _, _ => absurd h (by simp [Net.All])
  | (nd0, ins0) :: net, s0 :: ss, P, h, 0, nd, ins, s, hn, hs => by
    simp only [List.getElem?_cons_zero, Option.some.injEq, Prod.mk.injEq] at hn hs
    obtain ⟨rfl, rfl⟩ := hn
    subst hs
    exact h.1
  | (nd0, ins0) :: net, s0 :: ss, P, h, j + 1, nd, ins, s, hn, hs => by
    simp only [List.getElem?_cons_succ] at hn hs
    exact all_get h.2 hn hs

theorem inRange_get : ∀ {net : Net} {ss : List QState} {x : List (List ℚ)}, net.InRange ss x → ∀ {j : ℕ} {nd : Node} {ins : List ℕ} {s : QState},
    net[j]? = some (nd, ins) → ss[j]? = some s → ∃ y, nd.InRange s y
  | [], _, _, _, j, _, _, _, h, _ => by simp at h
  | _ :: _, [], _, h, _, _, _, _, _, hs => by simp at hs
  | (nd0, ins0) :: net, s0 :: ss, x, h, 0, nd, ins, s, hn, hs => by
    simp only [List.getElem?_cons_zero, Option.some.injEq, Prod.mk.injEq] at hn hs
    obtain ⟨rfl, rfl⟩ := hn
    subst hs
    exact ⟨_, h.1⟩
  | (nd0, ins0) :: net, s0 :: ss, x, h, j + 1, nd, ins, s, hn, hs => by
    simp only [List.getElem?_cons_succ] at hn hs
    exact inRange_get h.2 hn hs

/-- **C103**. Calibrate one model on two non-empty datasets, of which the second contains every sample of the first, in any order and with any
batch sizes; let the second trace record values of magnitude below `2^32`. Then at every element of every quantizer each value of the
fixed-point type derived from the first trace is a value of the type derived from the second. -/
theorem C103_more_data_types (net : Net) (ss : List QState) (hw : net.All Node.WF ss) (bsz bsz' : ℕ) (hb : 0 < bsz) (hb' : 0 < bsz')
    (data data' : List (List (List ℚ))) (hne : data ≠ []) (hsub : ∀ x ∈ data, x ∈ data') :
    ∃ t p t' p', net.trace ss bsz data = .ok (t, p) ∧ net.trace ss bsz' data' = .ok (t', p') ∧ (net.All Bounded t' →
      ∀ (j : ℕ) (nd : Node) (ins : List ℕ) (q : QSite) (s s' : QState), net[j]? = some (nd, ins) → nd.site = some q → t[j]? = some s →
        t'[j]? = some s' → ∀ e < prodL q.qShape, ∃ lo hi lo' hi' : ℚ, s.mn e = (lo : WithTop ℚ) ∧ s.mx e = (hi : WithBot ℚ) ∧
          s'.mn e = (lo' : WithTop ℚ) ∧ s'.mx e = (hi' : WithBot ℚ) ∧ ∀ (posOnly : Bool) (v : ℚ),
            IsKif (bitsExact lo hi (s.fbw e) posOnly).k (bitsExact lo hi (s.fbw e) posOnly).i (bitsExact lo hi (s.fbw e) posOnly).f v →
            IsKif (bitsExact lo' hi' (s'.fbw e) posOnly).k (bitsExact lo' hi' (s'.fbw e) posOnly).i
              (bitsExact lo' hi' (s'.fbw e) posOnly).f v) := by
  obtain ⟨t, p, t', p', h1, h2, h3⟩ := C103_more_data_ranges net ss hw bsz bsz' hb hb' data data' hsub
  refine ⟨t, p, t', p', h1, h2, ?_⟩
  intro hbd j nd ins q s s' hn hq hs hs' e he
  obtain ⟨u, g1, -, w1, r1, i1⟩ := trace_spec net ss bsz data hw hb
  obtain ⟨u', g2, -, w2, r2, i2⟩ := trace_spec net ss bsz' data' hw hb'
  rw [h1] at g1; rw [h2] at g2
  cases g1; cases g2
  obtain ⟨x0, hx0⟩ := List.exists_mem_of_ne_nil data hne
  obtain ⟨y', hy'⟩ := inRange_get (i2 x0 (hsub x0 hx0)) hn hs'
  obtain ⟨y, hy⟩ := inRange_get (i1 x0 hx0) hn hs
  have hex := h3 j nd ins q s s' hn hq hs hs'
  have hb2 : Bounded nd s' := all_get hbd hn hs'
  have hb1 : Bounded nd s := by
    intro e
    refine ⟨fun v hv => ?_, fun v hv => ?_⟩
    · have := (hex.2 e).1
      rw [hv] at this
      cases hm : s'.mn e with
      | top => rw [hm] at this; exact absurd this (by simp)
      | coe w => rw [hm] at this; exact ((hb2 e).1 w hm).trans (WithTop.coe_le_coe.mp this)
    · have := (hex.2 e).2
      rw [hv] at this
      cases hm : s'.mx e with
      | bot => rw [hm] at this; exact absurd this (by simp)
      | coe w => rw [hm] at this; exact lt_of_le_of_lt (WithBot.coe_le_coe.mp this) ((hb2 e).2 w hm)
  obtain ⟨lo, hi, T⟩ := Node.traced_of (all_get w1 hn hs) (all_get r1 hn hs) hb1 hy q hq e he
  obtain ⟨lo', hi', T'⟩ := Node.traced_of (all_get w2 hn hs') (all_get r2 hn hs') hb2 hy' q hq e he
  refine ⟨lo, hi, lo', hi', T.mn, T.mx, T'.mn, T'.mx, ?_⟩
  intro posOnly v hv
  obtain ⟨m1, m2⟩ := hex.2 e
  rw [T.mn, T'.mn] at m1
  rw [T.mx, T'.mx] at m2
  rw [hex.1]
  exact types_grow T.fb T.glo T.ghi (WithTop.coe_le_coe.mp m1) T.le (WithBot.coe_le_coe.mp m2) T'.lb T'.ub posOnly v hv

/-! ### a concrete case: two samples, then the same two in the other order, one of them twice, and a third one -/

def moreData : List (List (List ℚ)) := [[[-2, 5 / 4]], [[3, -1]], [[1, 1 / 3]], [[1, 1 / 3]]]

example : (∀ x ∈ exData, x ∈ moreData) ∧ exData ≠ [] := by decide +kernel

-- the ranges of the first element of every layer before and after
example : (match exNet.trace exNetStates 1 exData, exNet.trace exNetStates 3 moreData with
    | .ok (t, _), .ok (t', _) => (t ++ t').map fun s => ((s.mn 0).untopD 99, (s.mx 0).unbotD (-99))
    | _, _ => []) = [(-2, 1), (-3 / 2, 1), (99, -99), (1, 3), (-2, 3), (-3 / 2, 5 / 2), (99, -99), (1, 3)] := by decide +kernel

example : ∃ t p t' p', exNet.trace exNetStates 1 exData = .ok (t, p) ∧ exNet.trace exNetStates 3 moreData = .ok (t', p') :=
  let ⟨t, p, t', p', h, h', _⟩ := C103_more_data_types exNet exNetStates exNet_wf 1 3 (by decide) (by decide) exData moreData
    (by decide) (by decide +kernel)
  ⟨t, p, t', p', h, h'⟩

end HGQ
