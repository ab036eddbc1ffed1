import Verif.Props.Narrow

/-!
C36, C37, C66, C67: the types chosen for data paths lose nothing that the quantizers downstream of them use.
-/

namespace HGQ

open Spec

/-- a value stored in a variable of type `t` with rounding `R` and overflow `S` -/
def KIF.cast (t : KIF) (R : Rnd) (S : Sat) (x : ℚ) : ℚ := gfixedQuantizer x t.k (t.k + t.i + t.f) (t.k + t.i) R S

/-- the quantizer `q` is fed by `d`, directly or through layers that pass values on unchanged -/
inductive Feeds : Down → FPQ → Prop
  | quant (q : FPQ) : Feeds (.quant q) q
  | pass {outs : List Down} {d : Down} {q : FPQ} : d ∈ outs → Feeds d q → Feeds (.pass outs) q

/-- componentwise order of types -/
def KIF.Le (a b : KIF) : Prop := a.k ≤ b.k ∧ a.i ≤ b.i ∧ a.f ≤ b.f

theorem KIF.Le.trans {a b c : KIF} (h : a.Le b) (h' : b.Le c) : a.Le c :=
  ⟨h.1.trans h'.1, h.2.1.trans h'.2.1, h.2.2.trans h'.2.2⟩

theorem request_mem_le {outs : List Down} {d : Down} (h : d ∈ outs) : d.request.Le (requestList outs) := by
  induction outs with
  | nil => cases h
  | cons a l ih =>
    cases l with
    | nil =>
      simp only [List.mem_singleton] at h
      subst h
      rw [requestList]
      exact ⟨le_rfl, le_rfl, le_rfl⟩
    | cons b t =>
      rw [requestList]
      · rcases List.mem_cons.mp h with rfl | h
        · exact ⟨le_max_left _ _, le_max_left _ _, le_max_left _ _⟩
        · exact (ih h).trans ⟨le_max_right _ _, le_max_right _ _, le_max_right _ _⟩
      · simp

theorem feeds_request {d : Down} {q : FPQ} (h : Feeds d q) : q.request.Le d.request := by
  induction h with
  | quant q => rw [Down.request]; exact ⟨le_rfl, le_rfl, le_rfl⟩
  | pass hd _ ih =>
    rw [Down.request]
    exact ih.trans (request_mem_le hd)

theorem FPQ.elem_le (q : FPQ) {E : KBI} (h : E ∈ q.elems) :
    E.keepNegative ≤ q.kif.k ∧ E.integers - E.keepNegative ≤ q.kif.i ∧ E.bits - E.integers ≤ q.kif.f :=
  ⟨le_listMax (List.mem_map.mpr ⟨E, h, rfl⟩), le_listMax (List.mem_map.mpr ⟨E, h, rfl⟩),
    le_listMax (List.mem_map.mpr ⟨E, h, rfl⟩)⟩

/-- an element as a `gq` -/
theorem KBI.apply_eq_gq (E : KBI) (s : Bool) (hs : E.keepNegative = s.toInt) (R : Rnd) (S : Sat) (x : ℚ) :
    E.apply R S x = gq s (E.integers - E.keepNegative) (E.bits - E.integers) R S x := by
  unfold KBI.apply gq
  rw [hs]
  congr 1 <;> ring

theorem bool_of_k {k : ℤ} (h : k = 0 ∨ k = 1) : ∃ s : Bool, k = s.toInt := by
  rcases h with h | h
  · exact ⟨false, h⟩
  · exact ⟨true, h⟩

theorem KIF.cast_eq_gq (t : KIF) (s : Bool) (hs : t.k = s.toInt) (R : Rnd) (S : Sat) (x : ℚ) :
    t.cast R S x = gq s t.i t.f R S x := by
  unfold KIF.cast gq; rw [hs]

/-- truncating to a type that still has the integer bits: no overflow -/
theorem cast_trn_no_overflow (s : Bool) {ai af i f : ℤ} {x : ℚ} (hx : IsKif s.toInt ai af x) (hi : ai ≤ i)
    (hif : f < af → ai < i) (hw : 1 ≤ s.toInt + i + f) :
    gq s i f .TRN .WRAP x = rv .TRN f x := by
  refine gq_of_kif s (by omega) .TRN .WRAP (by decide) x ?_
  rcases le_or_gt af f with h | h
  · rw [rv_of_grid .TRN f (grid_refine h hx.1)]
    refine isKif_mono hx ?_ le_rfl hi h
    rcases toInt_cases s with h | h <;> omega
  · have hii := hif h
    obtain ⟨g, l, u⟩ := hx
    change -(_ * p2 ai) ≤ x at l
    change x < p2 ai at u
    have hp : p2 ai ≤ p2 i := p2_le_p2 (by omega)
    refine ⟨rv_grid .TRN f x, ?_, ?_⟩
    · change -(_ * p2 i) ≤ _
      have : -((s.toInt : ℚ) * p2 i) ≤ x := by
        refine le_trans ?_ l
        have : (s.toInt : ℚ) * p2 ai ≤ s.toInt * p2 i := by
          apply mul_le_mul_of_nonneg_left hp
          rcases toInt_cases s with h | h <;> rw [h] <;> norm_num
        linarith
      have h2 := rv_mono .TRN f this
      rwa [rv_of_grid .TRN f] at h2
      rcases hcs : s with _ | _
      · exact ⟨0, by simp [toInt_false]⟩
      · rw [hcs, toInt_true] at hw
        have h0 : 0 ≤ i + f := by omega
        have := grid_neg (grid_p2 h0)
        simpa [toInt_true] using this
    · change _ < p2 i
      have : rv .TRN f x ≤ x := by
        unfold rv
        have h1 : rndMap .TRN (x * p2 f) ≤ x * p2 f := by
          show flr (x * p2 f) ≤ x * p2 f
          exact flr_le _
        calc rndMap .TRN (x * p2 f) * p2 (-f) ≤ x * p2 f * p2 (-f) := mul_le_mul_of_nonneg_right h1 (p2_pos _).le
          _ = x := by rw [mul_assoc, ← p2_add]; simp [p2]
      linarith

/-- **C36.** `x` is a value of the type a layer produces (`available`); the data path is stored with the type
`merge_precision(available, requested)`, truncating and wrapping. For each quantizer `q` downstream, directly or through
`Concatenate`/`Reshape`/`Flatten`, with rounding `TRN` or `RND`, no output changes, provided that a wrapping quantizer is
not signed behind an unsigned value that it must wrap, unless more integer bits than its own are requested (`hwrap`; necessary,
`C66_wrap_iff`), and a sign-magnitude wrapping quantizer need not wrap (`hsm`). -/
theorem C36_merged_cast_invisible (available : KIF) (hk : available.k = 0 ∨ available.k = 1) (hi : available.i ≤ 65535)
    (outs : List Down) (d : Down) (hd : d ∈ outs) (q : FPQ) (hq : Feeds d q)
    (hw : 1 ≤ (mergePrecision available (requestList outs)).k + (mergePrecision available (requestList outs)).i +
      (mergePrecision available (requestList outs)).f)
    (hR : q.rnd = .TRN ∨ q.rnd = .RND)
    (e : ℕ) (he : e < q.elems.length) (hEk : q.elems[e].keepNegative = 0 ∨ q.elems[e].keepNegative = 1)
    (hEb : 0 ≤ q.elems[e].bits)
    (hwrap : q.sat = .WRAP → q.elems[e].keepNegative ≤ available.k ∨ available.i ≤ (requestList outs).i ∨
      q.elems[e].integers - q.elems[e].keepNegative < (requestList outs).i)
    (hsm : q.sat = .WRAP_SM → available.i ≤ (requestList outs).i)
    (x : ℚ) (hx : available.Holds x) :
    q.call e ((mergePrecision available (requestList outs)).cast .TRN .WRAP x) = q.call e x := by
  have hle := (feeds_request hq).trans (request_mem_le hd)
  obtain ⟨-, li, lf⟩ := hle
  generalize requestList outs = req at *
  obtain ⟨s0, hs0⟩ := bool_of_k hk
  obtain ⟨E, hE⟩ : ∃ E, E = q.elems[e] := ⟨_, rfl⟩
  have hEm : E ∈ q.elems := by rw [hE]; exact List.getElem_mem he
  rw [← hE] at hEk hEb hwrap
  obtain ⟨s, hs⟩ := bool_of_k hEk
  have hcall : ∀ y, q.call e y = gq s (E.integers - E.keepNegative) (E.bits - E.integers) q.rnd q.sat y := by
    intro y
    unfold FPQ.call
    rw [getD_lt _ _ he, ← hE, KBI.apply_eq_gq E s hs]
  obtain ⟨b1, b2, b3⟩ := q.elem_le hEm
  have hge : 0 ≤ s.toInt + (E.integers - E.keepNegative) + (E.bits - E.integers) := by rw [← hs]; omega
  rw [hcall, hcall, KIF.cast_eq_gq _ s0 (by exact hs0)]
  have hrf : q.request.f = q.kif.f + (if q.rnd = .TRN then 0 else 1) := by
    unfold FPQ.request; rcases hR with h | h <;> rw [h] <;> simp
  have hri : q.request.i = if q.sat = .WRAP ∨ q.sat = .WRAP_SM then q.kif.i else 65535 := by
    unfold FPQ.request
    cases hS : q.sat <;> simp
  obtain ⟨mi, hmi⟩ : ∃ mi, mi = (mergePrecision available req).i := ⟨_, rfl⟩
  obtain ⟨mf, hmf⟩ : ∃ mf, mf = (mergePrecision available req).f := ⟨_, rfl⟩
  have hmk : (mergePrecision available req).k = available.k := rfl
  rw [hmk, ← hmi, ← hmf, hs0] at hw
  rw [← hmi, ← hmf]
  have emf : mf = min available.f req.f := hmf
  have emi : mi = if available.f > req.f ∧ available.i ≤ req.i then min available.i req.i + 1 else min available.i req.i :=
    hmi
  have hx' : IsKif s0.toInt available.i available.f x := by rw [← hs0]; exact hx
  -- truncation to the merged fractional bits is invisible
  have hfin : rv q.rnd (E.bits - E.integers) (rv .TRN mf x) = rv q.rnd (E.bits - E.integers) x := by
    rcases le_or_gt available.f req.f with h | h
    · rw [rv_of_grid .TRN mf (by rw [emf, min_eq_left h]; exact hx'.1)]
    · apply rv_trn_finer
      rw [emf, min_eq_right h.le]
      rcases hR with h' | h' <;> rw [h'] at hrf
      · left; refine ⟨h', ?_⟩; simp at hrf; omega
      · right; refine ⟨h', ?_⟩; simp at hrf; omega
  rcases le_or_gt available.i req.i with hc | hc
  · -- integer bits kept
    rw [cast_trn_no_overflow s0 hx' (i := mi) (f := mf) (by rw [emi]; split_ifs <;> omega)
      (by intro h; rw [emi, if_pos ⟨by omega, hc⟩]; omega) hw]
    exact gq_congr _ _ _ _ _ _ hfin
  · -- only a wrapping quantizer asks for fewer integer bits
    have hmi' : mi = req.i := by rw [emi, if_neg (by omega), min_eq_right hc.le]
    have hS : q.sat = .WRAP := by
      by_contra hne
      by_cases hm : q.sat = .WRAP_SM
      · have := hsm hm; omega
      · rw [hri, if_neg (by tauto)] at li; omega
    have hEk' : E.keepNegative ≤ available.k ∨ E.integers - E.keepNegative < req.i := by
      rcases hwrap hS with h | h | h
      · exact .inl h
      · omega
      · exact .inr h
    rw [hS]
    rw [hri, if_pos (.inl hS)] at li
    obtain ⟨m, hm⟩ := gq_wrap s0 (i := mi) (f := mf) (by omega) .TRN x
    have hper : ∃ n : ℤ, p2 (s0.toInt + mi) = n * p2 (s.toInt + (E.integers - E.keepNegative)) := by
      have := grid_p2 (i := s0.toInt + mi) (f := -(s.toInt + (E.integers - E.keepNegative))) (by
        rw [← hs, ← hs0]; omega)
      simpa using this
    obtain ⟨n, hn⟩ := hper
    have : gq s0 mi mf .TRN .WRAP x =
        rv .TRN mf x + (-(m * n) : ℤ) * p2 (s.toInt + (E.integers - E.keepNegative)) := by
      rw [hm, hn]; push_cast; ring
    rw [this, gq_wrap_period hR s hge]
    exact gq_congr _ _ _ _ _ _ hfin

theorem quantsOf_mem {outs : List Down} {l : List FPQ} (h : quantsOf outs = some l) : outs = l.map .quant := by
  induction outs generalizing l with
  | nil => simp only [quantsOf, Option.some.injEq] at h; subst h; rfl
  | cons d ds ih =>
    cases d with
    | quant q =>
      simp only [quantsOf, Option.map_eq_some_iff] at h
      obtain ⟨l', h1, rfl⟩ := h
      rw [ih h1]; rfl
    | pass => simp [quantsOf] at h
    | other => simp [quantsOf] at h

/-- saturating first to a wider type and then to a narrower one is saturating to the narrower one -/
theorem sat_sat (s0 s : Bool) {i0 f0 i f : ℤ} {R : Rnd} (hR : R = .TRN ∧ f ≤ f0 ∨ R = .RND ∧ f + 1 ≤ f0)
    (hk : s.toInt ≤ s0.toInt) (hi : i ≤ i0) (hw0 : 1 ≤ s0.toInt + i0 + f0) (hw : 0 ≤ s.toInt + i + f) (x : ℚ) :
    gq s i f R .SAT (gq s0 i0 f0 .TRN .SAT x) = gq s i f R .SAT x := by
  have hf : f ≤ f0 := by rcases hR with h | h <;> omega
  rcases hw.eq_or_lt with h0 | h1
  · unfold gq; rw [← h0, gfixed_zero_bits, gfixed_zero_bits]
  have hv := rv_trn_finer hR x
  rw [gq_sat s0 hw0, gq_sat s (by omega), gq_sat s (by omega)]
  set u := rv .TRN f0 x with hu
  have hp : p2 i ≤ p2 i0 := p2_le_p2 hi
  have hpf : p2 (-f0) ≤ p2 (-f) := p2_le_p2 (by omega)
  have hsp : (s.toInt : ℚ) * p2 i ≤ s0.toInt * p2 i0 := by
    have h1 : (s.toInt : ℚ) ≤ s0.toInt := by exact_mod_cast hk
    have h2 : (0 : ℚ) ≤ s0.toInt := by rcases toInt_cases s0 with h | h <;> rw [h] <;> norm_num
    calc (s.toInt : ℚ) * p2 i ≤ s0.toInt * p2 i := mul_le_mul_of_nonneg_right h1 (p2_pos i).le
      _ ≤ s0.toInt * p2 i0 := mul_le_mul_of_nonneg_left hp h2
  have glow : ∃ n : ℤ, -((s.toInt : ℚ) * p2 i) = n * p2 (-f) := by
    rcases hcs : s with _ | _
    · exact ⟨0, by simp [toInt_false]⟩
    · rw [hcs, toInt_true] at h1
      have := grid_neg (grid_p2 (i := i) (f := f) (by omega))
      simpa [toInt_true] using this
  have gtop : ∃ n : ℤ, p2 i - p2 (-f) = n * p2 (-f) := by
    have : 0 ≤ i + f := by rcases toInt_cases s with h | h <;> omega
    obtain ⟨n, hn⟩ := grid_p2 this
    exact ⟨n - 1, by rw [hn]; push_cast; ring⟩
  have hlt : -((s.toInt : ℚ) * p2 i) ≤ p2 i - p2 (-f) := by
    have : p2 (-f) ≤ (1 + s.toInt) * p2 i := by
      rcases hcs : s with _ | _
      · rw [hcs, toInt_false] at h1
        simp only [toInt_false, Int.cast_zero, add_zero, one_mul]; exact p2_le_p2 (by omega)
      · rw [hcs, toInt_true] at h1
        simp only [toInt_true, Int.cast_one]
        have := p2_le_p2 (a := -f) (b := i + 1) (by omega)
        rw [p2_succ] at this; linarith
    linarith
  have hlt0 : -((s0.toInt : ℚ) * p2 i0) ≤ p2 i0 - p2 (-f0) := by linarith
  rcases le_or_gt u (-(s0.toInt * p2 i0)) with hlo | hlo
  · -- below the wide range
    rw [max_eq_right hlo, min_eq_left hlt0]
    have h2 : rv R f (-(s0.toInt * p2 i0)) ≤ -(s.toInt * p2 i) := by
      have := rv_mono R f (show -((s0.toInt : ℚ) * p2 i0) ≤ -(s.toInt * p2 i) by linarith)
      rwa [rv_of_grid R f glow] at this
    have h3 : rv R f x ≤ -(s.toInt * p2 i) := by rw [← hv]; exact (rv_mono R f hlo).trans h2
    rw [max_eq_right h2, max_eq_right h3]
  · rcases le_or_gt u (p2 i0 - p2 (-f0)) with hhi | hhi
    · rw [max_eq_left hlo.le, min_eq_left hhi, hv]
    · rw [max_eq_left hlo.le, min_eq_right hhi.le]
      have h2 : p2 i - p2 (-f) ≤ rv R f (p2 i0 - p2 (-f0)) := by
        have := rv_mono R f (show p2 i - p2 (-f) ≤ p2 i0 - p2 (-f0) by linarith)
        rwa [rv_of_grid R f gtop] at this
      have h3 : p2 i - p2 (-f) ≤ rv R f x := by rw [← hv]; exact h2.trans (rv_mono R f hhi.le)
      rw [min_eq_right (h2.trans (le_max_left _ _)), min_eq_right (h3.trans (le_max_left _ _))]

/-- **C37.** The input of the model is stored with the type derived from the quantizers that follow it. For `SAT` or
`WRAP`, and rounding `TRN` or `RND`, no output of any of these quantizers changes, for any input value at all. -/
theorem C37_input_cast_invisible (outs : List Down) (r : KifRS) (hr : deriveFromNext outs = some r)
    (hw : 1 ≤ r.kif.k + r.kif.i + r.kif.f) (hrk : r.kif.k = 0 ∨ r.kif.k = 1) (q : FPQ) (hq : Down.quant q ∈ outs)
    (hR : q.rnd = .TRN ∨ q.rnd = .RND) (hS : q.sat = .SAT ∨ q.sat = .WRAP)
    (e : ℕ) (he : e < q.elems.length) (hEk : q.elems[e].keepNegative = 0 ∨ q.elems[e].keepNegative = 1)
    (hEb : 0 ≤ q.elems[e].bits) (x : ℚ) :
    q.call e (r.kif.cast r.rnd r.sat x) = q.call e x := by
  unfold deriveFromNext at hr
  split at hr
  · cases hr
  · cases hr
  rename_i q0 qs hqs
  have houts := quantsOf_mem hqs
  split_ifs at hr with hall
  simp only [Option.some.injEq] at hr
  have hmem : q ∈ q0 :: qs := by
    rw [houts] at hq
    obtain ⟨q', h1, h2⟩ := List.mem_map.mp hq
    cases h2; exact h1
  have hsat : q.sat = r.sat := by
    rw [← hr]
    rcases List.mem_cons.mp hmem with rfl | h
    · rfl
    · simpa using List.all_eq_true.mp hall q h
  have hrnd : r.rnd = .TRN := by rw [← hr]
  have hk : q.kif.k ≤ r.kif.k := by rw [← hr]; exact le_listMax (List.mem_map.mpr ⟨q, hmem, rfl⟩)
  have hi : q.kif.i ≤ r.kif.i := by rw [← hr]; exact le_listMax (List.mem_map.mpr ⟨q, hmem, rfl⟩)
  have hf : q.kif.f + inputGuard q.rnd ≤ r.kif.f := by rw [← hr]; exact le_listMax (List.mem_map.mpr ⟨q, hmem, rfl⟩)
  obtain ⟨s0, hs0⟩ := bool_of_k hrk
  obtain ⟨E, hE⟩ : ∃ E, E = q.elems[e] := ⟨_, rfl⟩
  have hEm : E ∈ q.elems := by rw [hE]; exact List.getElem_mem he
  rw [← hE] at hEk hEb
  obtain ⟨s, hs⟩ := bool_of_k hEk
  have hcall : ∀ y, q.call e y = gq s (E.integers - E.keepNegative) (E.bits - E.integers) q.rnd q.sat y := by
    intro y
    unfold FPQ.call
    rw [getD_lt _ _ he, ← hE, KBI.apply_eq_gq E s hs]
  obtain ⟨b1, b2, b3⟩ := q.elem_le hEm
  have hge : 0 ≤ s.toInt + (E.integers - E.keepNegative) + (E.bits - E.integers) := by rw [← hs]; omega
  rw [hcall, hcall, KIF.cast_eq_gq _ s0 hs0, hrnd, ← hsat]
  have hRf : q.rnd = .TRN ∧ E.bits - E.integers ≤ r.kif.f ∨ q.rnd = .RND ∧ E.bits - E.integers + 1 ≤ r.kif.f := by
    rcases hR with h | h <;> rw [h] at hf
    · left; refine ⟨h, ?_⟩
      have : inputGuard .TRN = 0 := by decide
      omega
    · right; refine ⟨h, ?_⟩
      have : inputGuard .RND = 1 := by decide
      omega
  rcases hS with h | h <;> rw [h]
  · exact sat_sat s0 s hRf (by omega) (by omega) (by omega) hge x
  · obtain ⟨m, hm⟩ := gq_wrap s0 (i := r.kif.i) (f := r.kif.f) (by omega) .TRN x
    have hper : ∃ n : ℤ, p2 (s0.toInt + r.kif.i) = n * p2 (s.toInt + (E.integers - E.keepNegative)) := by
      have := grid_p2 (i := s0.toInt + r.kif.i) (f := -(s.toInt + (E.integers - E.keepNegative))) (by
        rw [← hs, ← hs0]; omega)
      simpa using this
    obtain ⟨n, hn⟩ := hper
    have : gq s0 r.kif.i r.kif.f .TRN .WRAP x =
        rv .TRN r.kif.f x + (-(m * n) : ℤ) * p2 (s.toInt + (E.integers - E.keepNegative)) := by
      rw [hm, hn]; push_cast; ring
    rw [this, gq_wrap_period hR s hge]
    exact gq_congr _ _ _ _ _ _ (rv_trn_finer hRf x)

/-- **C67.** When exactly one quantizer follows and it is homogeneous, storing the layer's output with the derived type and
modes already computes the quantizer: the stored value is the quantizer's output, for every element, and the quantizer
applied to it changes nothing. -/
theorem C67_fused_quantizer (outs : List Down) (r : KifRS) (hr : fusibleResult outs = some r) :
    ∃ q : FPQ, outs = [.quant q] ∧ ∀ (e : ℕ), e < q.elems.length → ∀ x : ℚ, r.kif.cast r.rnd r.sat x = q.call e x := by
  unfold fusibleResult at hr
  split at hr
  · rename_i q
    split_ifs at hr with hh
    simp only [Option.some.injEq] at hr
    refine ⟨q, rfl, fun e he x => ?_⟩
    rw [← hr]
    unfold FPQ.call KIF.cast
    rw [getD_lt _ _ he, q.elem_of_kif (by simpa using hh) _ (List.getElem_mem he)]
    rfl
  · cases hr

/-- **C67**, and conversely a type is fused only for a single homogeneous quantizer. -/
theorem C67_fused_iff (outs : List Down) :
    (fusibleResult outs).isSome ↔ ∃ q : FPQ, outs = [.quant q] ∧ ∀ a ∈ q.elems, ∀ b ∈ q.elems, a = b := by
  constructor
  · intro h
    obtain ⟨r, hr⟩ := Option.isSome_iff_exists.mp h
    unfold fusibleResult at hr
    split at hr
    · rename_i q
      split_ifs at hr with hh
      exact ⟨q, rfl, (C09_heterogeneous_iff _).mp (by simpa using hh)⟩
    · cases hr
  · rintro ⟨q, rfl, h⟩
    unfold fusibleResult
    simp only [(C09_heterogeneous_iff _).mpr h]; rfl

/-! Non-vacuity and the excluded modes. -/

-- two quantizers behind a Concatenate and one direct, wrapping
def exQ1 : FPQ := ⟨[⟨1, 6, 3⟩, ⟨0, 4, 2⟩], .RND, .WRAP⟩
def exQ2 : FPQ := ⟨[⟨1, 5, 4⟩, ⟨1, 5, 4⟩], .TRN, .WRAP⟩
def exOuts : List Down := [.pass [.quant exQ1, .pass [.quant exQ2]], .quant exQ2]

example : mergePrecision ⟨1, 6, 9⟩ (requestList exOuts) = ⟨1, 3, 4⟩ := by decide +kernel

example (x : ℚ) (hx : KIF.Holds ⟨1, 6, 9⟩ x) : exQ1.call 0 (KIF.cast ⟨1, 3, 4⟩ .TRN .WRAP x) = exQ1.call 0 x := by
  have := C36_merged_cast_invisible ⟨1, 6, 9⟩ (.inr rfl) (by decide) exOuts _ (List.mem_cons_self ..) exQ1
    (.pass (List.mem_cons_self ..) (.quant _)) (by decide +kernel) (.inr rfl) 0 (by decide) (.inr rfl) (by decide)
    (fun _ => .inl (by decide)) (by decide) x hx
  rwa [show mergePrecision ⟨1, 6, 9⟩ (requestList exOuts) = ⟨1, 3, 4⟩ by decide +kernel] at this

example : deriveFromNext [.quant exQ1, .quant exQ2] = some ⟨⟨1, 3, 4⟩, .TRN, .WRAP⟩ := by decide +kernel

example (x : ℚ) : exQ1.call 1 (KIF.cast ⟨1, 3, 4⟩ .TRN .WRAP x) = exQ1.call 1 x :=
  C37_input_cast_invisible [.quant exQ1, .quant exQ2] ⟨⟨1, 3, 4⟩, .TRN, .WRAP⟩ (by decide +kernel) (by decide) (.inr rfl)
    exQ1 (by simp) (.inr rfl) (.inr rfl) 1 (by decide) (.inl rfl) (by decide) x

example (x : ℚ) : KIF.cast ⟨1, 4, 2⟩ .RND .SAT x = (FPQ.const 3 1 4 2 .RND .SAT).call 2 x := by
  obtain ⟨q, h1, h2⟩ := C67_fused_quantizer [.quant (FPQ.const 3 1 4 2 .RND .SAT)] ⟨⟨1, 4, 2⟩, .RND, .SAT⟩ (by decide +kernel)
  cases h1
  exact h2 2 (by decide +kernel) x

/-- **C66** (partial), all modes: a value whose type is no wider than requested is stored unchanged, so no quantizer of
any mode sees a difference. Missing: types wider than requested, where only the modes of C36 and C37 are safe. -/
theorem C66_no_truncation_partial (available req : KIF) (hk : available.k = 0 ∨ available.k = 1)
    (hw : 1 ≤ available.k + available.i + available.f) (hi : available.i ≤ req.i) (hf : available.f ≤ req.f)
    (x : ℚ) (hx : available.Holds x) : (mergePrecision available req).cast .TRN .WRAP x = x := by
  obtain ⟨s0, hs0⟩ := bool_of_k hk
  have e : mergePrecision available req = available := by
    unfold mergePrecision
    simp only [min_eq_left hi, min_eq_left hf]
    rw [if_neg (by omega)]
  have hx' : IsKif s0.toInt available.i available.f x := by rw [← hs0]; exact hx
  rw [e, KIF.cast_eq_gq _ s0 hs0, cast_trn_no_overflow s0 hx' le_rfl (by omega) (by omega), rv_of_grid _ _ hx'.1]

example : (⟨1, 2, 3⟩ : KIF).Holds (-13/8) ∧ mergePrecision ⟨1, 2, 3⟩ ⟨0, 4, 5⟩ = ⟨1, 2, 3⟩ :=
  ⟨KIF.holds_of_holdsB (by decide +kernel), by decide +kernel⟩

/-- **C66** fails for every rounding mode other than `TRN` and `RND`: two extra fractional bits do not tell a value from the
tie (or from the integer) below it, so truncating first changes the rounded result. Here two quantizers read the data
path, so that none is fused. -/
theorem C66_other_rounding_fails (R : Rnd) (hR : R ≠ .TRN ∧ R ≠ .RND) : ∃ (q : FPQ) (available : KIF) (x : ℚ),
    q.rnd = R ∧ q.sat = .SAT ∧ heterogeneous q.elems = false ∧ available.Holds x ∧
    q.call 0 ((mergePrecision available (requestList [.quant q, .quant q])).cast .TRN .WRAP x) ≠ q.call 0 x := by
  cases R
  · exact absurd rfl hR.1
  · exact absurd rfl hR.2
  all_goals first
    | exact ⟨.const 2 1 4 0 _ .SAT, ⟨1, 4, 8⟩, 1/2 + 1/256, rfl, rfl, by decide +kernel, KIF.holds_of_holdsB (by decide +kernel),
        by decide +kernel⟩
    | exact ⟨.const 2 1 4 0 _ .SAT, ⟨1, 4, 8⟩, -1 + 1/256, rfl, rfl, by decide +kernel, KIF.holds_of_holdsB (by decide +kernel),
        by decide +kernel⟩
    | exact ⟨.const 2 1 4 0 _ .SAT, ⟨1, 4, 8⟩, -1/2 + 1/256, rfl, rfl, by decide +kernel, KIF.holds_of_holdsB (by decide +kernel),
        by decide +kernel⟩

/-- **C66**, the same for the type of the model's input. -/
theorem C66_other_rounding_input_fails (R : Rnd) (hR : R ≠ .TRN ∧ R ≠ .RND) : ∃ (q : FPQ) (r : KifRS) (x : ℚ),
    q.rnd = R ∧ q.sat = .SAT ∧ deriveFromNext [.quant q, .quant q] = some r ∧
    q.call 0 (r.kif.cast r.rnd r.sat x) ≠ q.call 0 x := by
  cases R
  · exact absurd rfl hR.1
  · exact absurd rfl hR.2
  all_goals first
    | exact ⟨.const 2 1 4 0 _ .SAT, ⟨⟨1, 4, 2⟩, .TRN, .SAT⟩, 1/2 + 1/256, rfl, rfl, by decide +kernel, by decide +kernel⟩
    | exact ⟨.const 2 1 4 0 _ .SAT, ⟨⟨1, 4, 2⟩, .TRN, .SAT⟩, -1 + 1/256, rfl, rfl, by decide +kernel, by decide +kernel⟩
    | exact ⟨.const 2 1 4 0 _ .SAT, ⟨⟨1, 4, 2⟩, .TRN, .SAT⟩, -1/2 + 1/256, rfl, rfl, by decide +kernel, by decide +kernel⟩

/-- **C66** fails at the input for `SAT_ZERO`: a value just below the range is zeroed by the input type although the
quantizer would have rounded it into range. -/
theorem C66_input_sat_zero_fails : ∃ (q : FPQ) (r : KifRS) (x : ℚ), q.rnd = .RND ∧ q.sat = .SAT_ZERO ∧
    deriveFromNext [.quant q, .quant q] = some r ∧ q.call 0 (r.kif.cast r.rnd r.sat x) = 0 ∧ q.call 0 x = -16 :=
  ⟨.const 2 1 4 0 .RND .SAT_ZERO, ⟨⟨1, 4, 1⟩, .TRN, .SAT_ZERO⟩, -16 - 1/4, rfl, rfl, by decide +kernel, by decide +kernel,
    by decide +kernel⟩

/-- **C66** fails at the input for `WRAP_SM`, as the code itself warns. -/
theorem C66_input_wrap_sm_fails : ∃ (q q' : FPQ) (r : KifRS) (x : ℚ), q.rnd = .TRN ∧ q.sat = .WRAP_SM ∧
    deriveFromNext [.quant q, .quant q'] = some r ∧ q.call 0 (r.kif.cast r.rnd r.sat x) ≠ q.call 0 x :=
  ⟨.const 1 1 2 0 .TRN .WRAP_SM, .const 1 1 3 0 .TRN .WRAP_SM, ⟨⟨1, 3, 0⟩, .TRN, .WRAP_SM⟩, 8, rfl, rfl,
    by decide +kernel, by decide +kernel⟩

/-- **C66** fails for an unsigned value in front of a signed wrapping quantizer: the merged type keeps only the
quantizer's integer bits without its sign bit. -/
theorem C66_unsigned_into_signed_wrap_fails : ∃ (q : FPQ) (available : KIF) (x : ℚ), q.rnd = .TRN ∧ q.sat = .WRAP ∧
    available.Holds x ∧ q.call 0 x = -4 ∧
    q.call 0 ((mergePrecision available (requestList [.quant q, .quant q])).cast .TRN .WRAP x) = 4 :=
  ⟨.const 1 1 3 0 .TRN .WRAP, ⟨0, 5, 0⟩, 12, rfl, rfl, KIF.holds_of_holdsB (by decide +kernel), by decide +kernel,
    by decide +kernel⟩

end HGQ
