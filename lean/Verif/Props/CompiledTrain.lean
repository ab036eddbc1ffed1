import Verif.Model.CompiledTrain
import Verif.Props.Adapt

/-!
C94: the kernel bitwidths are adapted to the weights once, and then belong to the optimizer.
-/

namespace HGQ.Compiled
open Spec

variable {F : Type}

/-! ### specification -/

/-- what the optimizer alone makes of the bitwidths in a history -/
def optimizerOnly (f : F) : List (Use F) → F
  | [] => f
  | .eagerStep _ opt :: us => optimizerOnly (opt f) us
  | .fitStep _ _ opt :: us => optimizerOnly (opt f) us
  | _ :: us => optimizerOnly f us

/-- the promised bitwidths of a layer that adapts at the first training step: that step adapts, then only the optimizer acts -/
def adaptedOnce (f : F) : List (Use F) → F
  | [] => f
  | .eagerStep adapt opt :: us => optimizerOnly (opt (adapt f)) us
  | .fitStep _ adapt opt :: us => optimizerOnly (opt (adapt f)) us
  | _ :: us => adaptedOnce f us

/-- not a training step -/
def Use.NoTraining : Use F → Prop
  | .eagerStep _ _ => False
  | .fitStep _ _ _ => False
  | _ => True

/-- `model.fit` with signature `sig` does not occur before the next `model.compile` -/
def NoFit (sig : ℕ) : List (Use F) → Prop
  | [] => True
  | .compile :: _ => True
  | .fitStep s _ _ :: us => s ≠ sig ∧ NoFit sig us
  | _ :: us => NoFit sig us

/-! ### layers that adapt when they are built -/

/-- the flags never ask for an adaption, nor does a compiled function -/
structure Done (s : Layer F) : Prop where
  flags : (s.flags.doAdapt && s.flags.delayed) = false
  cache : ∀ c ∈ s.cache, c.2 = false

theorem forward_done {k : Kind} {t : Bool} {fl : Flags} (h : (fl.doAdapt && fl.delayed) = false) :
    fl.forward k t = (false, fl) := by
  cases k with
  | plain => rfl
  | fused => cases t <;> simp_all [Flags.forward]
  | batchNorm => simp_all [Flags.forward]

theorem lookup_mem {α β : Type} [BEq α] [LawfulBEq α] {l : List (α × β)} {a : α} {b : β} (h : l.lookup a = some b) :
    (a, b) ∈ l := by
  obtain ⟨l1, l2, he, -⟩ := List.lookup_eq_some_iff.mp h
  rw [he]; simp

theorem Done.compiled {k : Kind} {s : Layer F} (h : Done s) (t : Bool) (sig : ℕ) (adapt opt : F → F) :
    Done (s.compiled k t sig adapt opt) ∧ (s.compiled k t sig adapt opt).fbw = opt s.fbw := by
  unfold Layer.compiled
  cases hc : s.cache.lookup (t, sig) with
  | some b =>
    have : b = false := h.cache _ (lookup_mem hc)
    subst this
    exact ⟨⟨h.flags, h.cache⟩, rfl⟩
  | none =>
    simp only [forward_done h.flags]
    refine ⟨⟨h.flags, ?_⟩, rfl⟩
    intro c hc'
    rcases List.mem_cons.mp hc' with rfl | hc'
    · rfl
    · exact h.cache c hc'

theorem Done.use {k : Kind} {s : Layer F} (h : Done s) (u : Use F) :
    Done (s.use k u) ∧ (s.use k u).fbw = optimizerOnly s.fbw [u] := by
  cases u with
  | symbolic => simp only [Layer.use, forward_done h.flags]; exact ⟨h, rfl⟩
  | call adapt => simp only [Layer.use, forward_done h.flags]; exact ⟨⟨h.flags, h.cache⟩, rfl⟩
  | predict sig adapt => exact h.compiled false sig adapt id
  | eagerStep adapt opt => simp only [Layer.use, forward_done h.flags]; exact ⟨⟨h.flags, h.cache⟩, rfl⟩
  | fitStep sig adapt opt => exact h.compiled true sig adapt opt
  | compile => exact ⟨⟨h.flags, by simp [Layer.use]⟩, rfl⟩

theorem optimizerOnly_cons (f : F) (u : Use F) (us : List (Use F)) :
    optimizerOnly f (u :: us) = optimizerOnly (optimizerOnly f [u]) us := by
  cases u <;> rfl

theorem Done.run {k : Kind} : ∀ (us : List (Use F)) {s : Layer F}, Done s → (s.run k us).fbw = optimizerOnly s.fbw us
  | [], s, _ => rfl
  | u :: us, s, h => by
    obtain ⟨h1, h2⟩ := h.use (k := k) u
    rw [optimizerOnly_cons, ← h2]
    exact Done.run us h1

/-- **C94**, layers that adapt when they are built (`HDense`, the convolutions, and the convolutions fused with batch
normalisation, which do not delay): in any history, compiled or not, the bitwidths are those adapted at build time and then
changed by the optimizer alone. -/
theorem C94_adapted_at_build (k : Kind) (adapt₀ : F → F) (f : F) (us : List (Use F)) :
    ((Layer.build adapt₀ f true false).run k us).fbw = optimizerOnly (adapt₀ f) us :=
  Done.run us ⟨rfl, by simp [Layer.build]⟩

/-- with `do_adapt_kernel_bits=False` nothing is ever adapted -/
theorem C94_not_adapted (k : Kind) (delayed : Bool) (adapt₀ : F → F) (f : F) (us : List (Use F)) :
    ((Layer.build adapt₀ f false delayed).run k us).fbw = optimizerOnly f us :=
  Done.run us ⟨rfl, by simp [Layer.build]⟩

/-! ### `HDenseBatchNorm` -/

/-- waiting for the first training step: compiled inference functions do not adapt, and no training function is compiled -/
structure Waiting (s : Layer F) : Prop where
  flags : s.flags = ⟨true, true⟩
  cache : ∀ c ∈ s.cache, c.2 = false ∧ c.1.1 = false

theorem lookup_none_of {s : Layer F} (h : ∀ c ∈ s.cache, c.1.1 = false) (sig : ℕ) :
    s.cache.lookup (true, sig) = none := by
  cases hc : s.cache.lookup (true, sig) with
  | none => rfl
  | some b => exact absurd (h _ (lookup_mem hc)) (by simp)

theorem Waiting.use {s : Layer F} (h : Waiting s) {u : Use F} (hu : u.NoTraining) :
    Waiting (s.use .fused u) ∧ (s.use .fused u).fbw = s.fbw := by
  have hf : s.flags.forward .fused false = (false, s.flags) := by simp [Flags.forward]
  cases u with
  | symbolic => simp only [Layer.use, hf]; exact ⟨h, trivial⟩
  | call adapt => simp only [Layer.use, hf]; exact ⟨⟨h.flags, h.cache⟩, rfl⟩
  | predict sig adapt =>
    simp only [Layer.use, Layer.compiled]
    cases hc : s.cache.lookup (false, sig) with
    | some b =>
      have : b = false := (h.cache _ (lookup_mem hc)).1
      subst this
      exact ⟨⟨h.flags, h.cache⟩, rfl⟩
    | none =>
      simp only [hf]
      refine ⟨⟨h.flags, ?_⟩, rfl⟩
      intro c hc'
      rcases List.mem_cons.mp hc' with rfl | hc'
      · exact ⟨rfl, rfl⟩
      · exact h.cache c hc'
  | eagerStep _ _ => exact absurd hu (by simp [Use.NoTraining])
  | fitStep _ _ _ => exact absurd hu (by simp [Use.NoTraining])
  | compile => exact ⟨⟨h.flags, by simp [Layer.use]⟩, rfl⟩

theorem Waiting.run : ∀ (us : List (Use F)) {s : Layer F}, Waiting s → (∀ u ∈ us, u.NoTraining) →
    Waiting (s.run .fused us) ∧ (s.run .fused us).fbw = s.fbw
  | [], s, h, _ => ⟨h, rfl⟩
  | u :: us, s, h, hn => by
    obtain ⟨h1, h2⟩ := h.use (hn u (by simp))
    obtain ⟨h3, h4⟩ := Waiting.run us h1 fun u hu => hn u (by simp [hu])
    exact ⟨h3, h4.trans h2⟩

theorem adaptedOnce_skip (f : F) : ∀ (us vs : List (Use F)), (∀ u ∈ us, u.NoTraining) →
    adaptedOnce f (us ++ vs) = adaptedOnce f vs
  | [], vs, _ => rfl
  | u :: us, vs, h => by
    have h1 := h u (by simp)
    have h2 := adaptedOnce_skip f us vs fun u hu => h u (by simp [hu])
    cases u <;> first | exact h2 | exact absurd h1 (by simp [Use.NoTraining])

theorem waiting_build (adapt₀ : F → F) (f : F) : Waiting (Layer.build adapt₀ f true true) ∧
    (Layer.build adapt₀ f true true).fbw = f := ⟨⟨rfl, by simp [Layer.build]⟩, rfl⟩

/-- **C94** (partial), `HDenseBatchNorm`: if the first training step is one of an uncompiled training loop, it adapts the
bitwidths, and in whatever follows, `model.fit` included, only the optimizer changes them. Missing: a first step made by
`model.fit` (`C94_every_fit_step`). -/
theorem C94_eager_first_partial (adapt₀ : F → F) (f : F) (before after : List (Use F)) (adapt opt : F → F)
    (hb : ∀ u ∈ before, u.NoTraining) :
    ((Layer.build adapt₀ f true true).run .fused (before ++ .eagerStep adapt opt :: after)).fbw =
      adaptedOnce f (before ++ .eagerStep adapt opt :: after) := by
  obtain ⟨h1, h2⟩ := Waiting.run before (waiting_build adapt₀ f).1 hb
  rw [(waiting_build adapt₀ f).2] at h2
  rw [adaptedOnce_skip f before _ hb]
  unfold Layer.run at h1 h2 ⊢
  rw [List.foldl_append, List.foldl_cons]
  generalize List.foldl (Layer.use .fused) (Layer.build adapt₀ f true true) before = s at h1 h2
  have hd : Done (s.use .fused (.eagerStep adapt opt)) ∧ (s.use .fused (.eagerStep adapt opt)).fbw = opt (adapt f) := by
    have hf : s.flags.forward .fused true = (true, ⟨false, true⟩) := by rw [h1.flags]; rfl
    simp only [Layer.use, hf]
    exact ⟨⟨rfl, fun c hc => (h1.cache c hc).1⟩, by simp [h2]⟩
  have := Done.run (k := .fused) after hd.1
  unfold Layer.run at this
  rw [this, hd.2]
  rfl

/-- no adaption is asked for, and only the training function of `sig` adapts -/
structure OnlyFit (sig : ℕ) (s : Layer F) : Prop where
  flags : (s.flags.doAdapt && s.flags.delayed) = false
  cache : ∀ c ∈ s.cache, c.1 = (true, sig) ∨ c.2 = false

theorem OnlyFit.compiled {k : Kind} {sig : ℕ} {s : Layer F} (h : OnlyFit sig s) {t : Bool} {sig' : ℕ}
    (hne : (t, sig') ≠ (true, sig)) (adapt opt : F → F) :
    OnlyFit sig (s.compiled k t sig' adapt opt) ∧ (s.compiled k t sig' adapt opt).fbw = opt s.fbw := by
  unfold Layer.compiled
  cases hc : s.cache.lookup (t, sig') with
  | some b =>
    have : b = false := (h.cache _ (lookup_mem hc)).resolve_left hne
    subst this
    exact ⟨⟨h.flags, h.cache⟩, rfl⟩
  | none =>
    simp only [forward_done h.flags]
    refine ⟨⟨h.flags, ?_⟩, rfl⟩
    intro c hc'
    rcases List.mem_cons.mp hc' with rfl | hc'
    · exact .inr rfl
    · exact h.cache c hc'

theorem OnlyFit.run {k : Kind} {sig : ℕ} : ∀ (us : List (Use F)) {s : Layer F}, OnlyFit sig s → NoFit sig us →
    (s.run k us).fbw = optimizerOnly s.fbw us
  | [], s, _, _ => rfl
  | .symbolic :: us, s, h, hn => by
    have : s.use k .symbolic = s := by simp [Layer.use, forward_done h.flags]
    change ((s.use k .symbolic).run k us).fbw = _
    rw [this]; exact OnlyFit.run us h hn
  | .call adapt :: us, s, h, hn => by
    have : s.use k (.call adapt) = s := by simp [Layer.use, forward_done h.flags]
    change ((s.use k (.call adapt)).run k us).fbw = _
    rw [this]; exact OnlyFit.run us h hn
  | .predict sig' adapt :: us, s, h, hn => by
    obtain ⟨h1, h2⟩ := h.compiled (k := k) (t := false) (sig' := sig') (by simp) adapt id
    have := OnlyFit.run (k := k) us h1 hn
    rw [h2] at this
    exact this
  | .eagerStep adapt opt :: us, s, h, hn => by
    have h1 : OnlyFit sig (s.use k (.eagerStep adapt opt)) := by
      simp only [Layer.use, forward_done h.flags]; exact ⟨h.flags, h.cache⟩
    have h2 : (s.use k (.eagerStep adapt opt)).fbw = opt s.fbw := by simp [Layer.use, forward_done h.flags]
    have := OnlyFit.run (k := k) us h1 hn
    rw [h2] at this
    exact this
  | .fitStep sig' adapt opt :: us, s, h, hn => by
    obtain ⟨h1, h2⟩ := h.compiled (k := k) (t := true) (sig' := sig') (by simpa using hn.1) adapt opt
    have := OnlyFit.run (k := k) us h1 hn.2
    rw [h2] at this
    exact this
  | .compile :: us, s, h, _ => Done.run us ⟨h.flags, by simp [Layer.use]⟩

/-- the state after a first training step made by `model.fit` -/
theorem first_fit (adapt₀ : F → F) (f : F) (before : List (Use F)) (sig : ℕ) (adapt opt : F → F)
    (hb : ∀ u ∈ before, u.NoTraining) :
    let s := (Layer.build adapt₀ f true true).run .fused (before ++ [.fitStep sig adapt opt])
    OnlyFit sig s ∧ s.fbw = opt (adapt f) ∧ s.cache.lookup (true, sig) = some true := by
  obtain ⟨h1, h2⟩ := Waiting.run before (waiting_build adapt₀ f).1 hb
  rw [(waiting_build adapt₀ f).2] at h2
  unfold Layer.run at h1 h2 ⊢
  rw [List.foldl_append]
  generalize List.foldl (Layer.use .fused) (Layer.build adapt₀ f true true) before = s at h1 h2
  have hf : s.flags.forward .fused true = (true, ⟨false, true⟩) := by rw [h1.flags]; rfl
  simp only [List.foldl_cons, List.foldl_nil, Layer.use, Layer.compiled,
    lookup_none_of (fun c hc => (h1.cache c hc).2) sig, hf]
  refine ⟨⟨rfl, ?_⟩, by simp [h2], by simp⟩
  intro c hc
  rcases List.mem_cons.mp hc with rfl | hc
  · exact .inl rfl
  · exact .inr (h1.cache c hc).1

/-- **C94** (partial), `HDenseBatchNorm`: a first training step made by `model.fit` adapts the bitwidths, and only the optimizer
changes them afterwards as long as the compiled training function is not used again before `model.compile`. -/
theorem C94_one_fit_step_partial (adapt₀ : F → F) (f : F) (before after : List (Use F)) (sig : ℕ) (adapt opt : F → F)
    (hb : ∀ u ∈ before, u.NoTraining) (ha : NoFit sig after) :
    ((Layer.build adapt₀ f true true).run .fused (before ++ .fitStep sig adapt opt :: after)).fbw =
      adaptedOnce f (before ++ .fitStep sig adapt opt :: after) := by
  obtain ⟨h1, h2, -⟩ := first_fit adapt₀ f before sig adapt opt hb
  have := OnlyFit.run (k := .fused) after h1 ha
  rw [h2] at this
  rw [adaptedOnce_skip f before _ hb]
  refine Eq.trans ?_ this
  unfold Layer.run
  simp [List.foldl_append]

/-- a run of `model.fit`: steps with one input signature -/
def fit (sig : ℕ) (steps : List ((F → F) × (F → F))) : List (Use F) := steps.map fun p => .fitStep sig p.1 p.2

/-- C94 is false for `HDenseBatchNorm` trained by `model.fit`: each step of the compiled function adapts the bitwidths again,
because the adaption was part of the code it was compiled from. -/
theorem C94_every_fit_step (adapt₀ : F → F) (f : F) (before : List (Use F)) (sig : ℕ)
    (steps : List ((F → F) × (F → F))) (hb : ∀ u ∈ before, u.NoTraining) :
    ((Layer.build adapt₀ f true true).run .fused (before ++ fit sig steps)).fbw =
      steps.foldl (fun f p => p.2 (p.1 f)) f := by
  cases steps with
  | nil =>
    obtain ⟨h1, h2⟩ := Waiting.run before (waiting_build adapt₀ f).1 hb
    rw [(waiting_build adapt₀ f).2] at h2
    simpa [fit] using h2
  | cons p steps =>
    obtain ⟨-, h2, h3⟩ := first_fit adapt₀ f before sig p.1 p.2 hb
    have key : ∀ (steps : List ((F → F) × (F → F))) (s : Layer F), s.cache.lookup (true, sig) = some true →
        (s.run .fused (fit sig steps)).fbw = steps.foldl (fun f p => p.2 (p.1 f)) s.fbw := by
      intro steps
      induction steps with
      | nil => intro s _; rfl
      | cons q steps ih =>
        intro s hs
        have hu : s.use .fused (.fitStep sig q.1 q.2) = { s with fbw := q.2 (q.1 s.fbw) } := by
          simp [Layer.use, Layer.compiled, hs]
        change ((s.use .fused (.fitStep sig q.1 q.2)).run .fused (fit sig steps)).fbw = _
        rw [hu]
        exact ih { s with fbw := q.2 (q.1 s.fbw) } hs
    have := key steps _ h3
    rw [h2] at this
    refine Eq.trans ?_ this
    unfold Layer.run
    simp [fit, List.foldl_append]

/-! ### what that does to the bitwidths -/

/-- the bitwidth of a kernel entry that step `n` of `model.fit` quantizes with, and the one it leaves: adapted to the fused value
`w n` of that moment, clipped by the quantizer, then moved by the optimizer by `d n`. quantizer.py lines 141-142 and 274-282 -/
noncomputable def used (lo hi : ℝ) (w : ℕ → ℚ) (d : ℕ → ℝ) (f : ℝ) : ℕ → ℝ
  | 0 => clipFbw lo hi (adaptBw f (w 0))
  | n + 1 => clipFbw lo hi (adaptBw (used lo hi w d f n + d n) (w (n + 1)))

/-- the steps of such a run -/
noncomputable def stepsOf (lo hi : ℝ) (w : ℕ → ℚ) (d : ℕ → ℝ) (n : ℕ) : List ((ℝ → ℝ) × (ℝ → ℝ)) :=
  (List.range n).map fun i => ((fun f => clipFbw lo hi (adaptBw f (w i))), (fun f => f + d i))

theorem foldl_steps (lo hi : ℝ) (w : ℕ → ℚ) (d : ℕ → ℝ) (f : ℝ) : ∀ n,
    (stepsOf lo hi w d (n + 1)).foldl (fun f p => p.2 (p.1 f)) f = used lo hi w d f n + d n
  | 0 => by simp [stepsOf, used]
  | n + 1 => by
    have ih := foldl_steps lo hi w d f n
    unfold stepsOf at ih ⊢
    rw [List.range_succ, List.map_append, List.foldl_append, ih]
    rfl

theorem adapt_le {f L : ℝ} {w : ℚ} (hw : w ≠ 0) (h : L ≤ Real.logb 2 |(w : ℝ)|) {lo hi : ℝ} (hlh : lo ≤ hi) :
    clipFbw lo hi (adaptBw f w) ≤ max lo (f - L) := by
  unfold adaptBw
  rw [if_neg hw]
  change max lo (min (f - Real.logb 2 |(w : ℝ)|) hi) ≤ _
  apply max_le (le_max_left _ _)
  exact le_trans (min_le_left _ _) (le_trans (by linarith) (le_max_right _ _))

theorem lo_le_clip {lo hi : ℝ} (h : lo ≤ hi) (x : WithTop ℝ) : lo ≤ clipFbw lo hi x := by
  cases x with
  | top => exact h
  | coe a => exact le_max_left _ _

theorem used_le {lo hi L c : ℝ} (hlh : lo ≤ hi) (hc : c < L) (w : ℕ → ℚ) (d : ℕ → ℝ) (f : ℝ) (hw : ∀ n, w n ≠ 0)
    (hL : ∀ n, L ≤ Real.logb 2 |(w n : ℝ)|) (hd : ∀ n, d n ≤ c) :
    ∀ n, used lo hi w d f n ≤ max lo (f - L - n * (L - c))
  | 0 => by simpa [used] using adapt_le (f := f) (hw 0) (hL 0) hlh
  | n + 1 => by
    have ih := used_le hlh hc w d f hw hL hd n
    have h1 := adapt_le (f := used lo hi w d f n + d n) (hw (n + 1)) (hL (n + 1)) hlh
    refine le_trans h1 (max_le (le_max_left _ _) ?_)
    have hdn := hd n
    rcases le_max_iff.mp ih with h | h
    · exact le_trans (by linarith) (le_max_left _ _)
    · refine le_trans ?_ (le_max_right _ _)
      push_cast
      linarith

/-- C94, what `model.fit` does to a kernel entry of `HDenseBatchNorm` with a fused value above 1: if the optimizer moves the
bitwidth by at most `c` per step and `log2` of the fused value stays above some `L > c`, then from some step on every step
quantizes with the smallest bitwidth the quantizer allows. -/
theorem C94_bits_run_to_the_lower_clip (lo hi L c : ℝ) (hlh : lo ≤ hi) (hc : c < L) (w : ℕ → ℚ) (d : ℕ → ℝ) (f : ℝ)
    (hw : ∀ n, w n ≠ 0) (hL : ∀ n, L ≤ Real.logb 2 |(w n : ℝ)|) (hd : ∀ n, d n ≤ c) :
    ∃ N, ∀ n ≥ N, used lo hi w d f n = lo := by
  obtain ⟨N, hN⟩ := exists_nat_gt ((f - L - lo) / (L - c))
  refine ⟨N, fun n hn => ?_⟩
  have hLc : 0 < L - c := by linarith
  have h1 := used_le hlh hc w d f hw hL hd n
  have h2 : f - L - n * (L - c) ≤ lo := by
    rw [div_lt_iff₀ hLc] at hN
    have : (N : ℝ) ≤ n := by exact_mod_cast hn
    nlinarith
  rw [max_eq_left h2] at h1
  have h3 : lo ≤ used lo hi w d f n := by
    cases n <;> exact lo_le_clip hlh _
  exact le_antisymm h1 h3

/-- … and then the entry is quantized to zero, with the default clip of -23 bits whenever it is below 2^22. -/
theorem C94_weights_vanish (st : ℤ) (hst : st ≠ 3) (hi L c : ℝ) (hhi : -23 ≤ hi) (hc : c < L) (w : ℕ → ℚ) (d : ℕ → ℝ) (f : ℝ)
    (hw : ∀ n, w n ≠ 0) (hL : ∀ n, L ≤ Real.logb 2 |(w n : ℝ)|) (hd : ∀ n, d n ≤ c) (hsmall : ∀ n, |w n| < 2 ^ 22) :
    ∃ N, ∀ n ≥ N, evalQ st (tfRoundR (used (-23) hi w d f n)) (w n) = 0 := by
  obtain ⟨N, hN⟩ := C94_bits_run_to_the_lower_clip (-23) hi L c hhi hc w d f hw hL hd
  refine ⟨N, fun n hn => ?_⟩
  rw [hN n hn]
  have hr : tfRoundR (-23 : ℝ) = -23 := by
    have := tfRoundR_bounds (-23 : ℝ)
    have h1 := abs_le.mp this
    have h2 : (tfRoundR (-23 : ℝ) : ℝ) < ((-22 : ℤ) : ℝ) := by push_cast; linarith
    have h3 : ((-24 : ℤ) : ℝ) < (tfRoundR (-23 : ℝ) : ℝ) := by push_cast; linarith
    have h2' := Int.cast_lt.mp h2
    have h3' := Int.cast_lt.mp h3
    omega
  rw [hr, evalQ_units, if_neg hst]
  have hs : |w n * p2 (-23)| < 1 / 2 := by
    rw [abs_mul, abs_of_pos (p2_pos _)]
    calc |w n| * p2 (-23) < 2 ^ 22 * p2 (-23) := mul_lt_mul_of_pos_right (hsmall n) (p2_pos _)
      _ = 1 / 2 := by unfold p2; norm_num
  have hs' := abs_lt.mp hs
  have : flr (w n * p2 (-23) + 1 / 2) = 0 := by
    rw [show flr (w n * p2 (-23) + 1 / 2) = ⌊w n * p2 (-23) + 1 / 2⌋ from rfl, Int.floor_eq_zero_iff]
    exact ⟨by linarith, by linarith⟩
  rw [this]
  simp

/-- the run meant: `n + 1` steps of `model.fit` leave the bitwidth used in the last step, moved by the optimizer -/
theorem C94_fit_bits (adapt₀ : ℝ → ℝ) (f lo hi : ℝ) (before : List (Use ℝ)) (sig n : ℕ) (w : ℕ → ℚ) (d : ℕ → ℝ)
    (hb : ∀ u ∈ before, u.NoTraining) :
    ((Layer.build adapt₀ f true true).run .fused (before ++ fit sig (stepsOf lo hi w d (n + 1)))).fbw =
      used lo hi w d f n + d n := by
  rw [C94_every_fit_step adapt₀ f before sig _ hb, foldl_steps]

/-- a constant fused value 3 and an optimizer that moves bitwidths by at most 1 per step meet the hypotheses -/
example : ∃ L c : ℝ, c < L ∧ (∀ n : ℕ, L ≤ Real.logb 2 |((fun _ => 3 : ℕ → ℚ) n : ℝ)|) ∧ ∀ n : ℕ, (fun _ => (1 : ℝ)) n ≤ c := by
  refine ⟨Real.logb 2 3, 1, ?_, fun n => by simp, fun _ => le_rfl⟩
  rw [Real.lt_logb_iff_rpow_lt (by norm_num) (by norm_num)]
  norm_num

/-- with a fused value of 2 and no movement by the optimizer: 6 bits become 5, 4, 3; a recompiled model keeps 5, as does an
uncompiled first step -/
example : let adapt := fun f : ℤ => f - 1
    let s := Layer.build id (6 : ℤ) true true
    (s.run .fused [.symbolic, .fitStep 0 adapt id]).fbw = 5 ∧
    (s.run .fused [.symbolic, .fitStep 0 adapt id, .fitStep 0 adapt id, .fitStep 0 adapt id]).fbw = 3 ∧
    (s.run .fused [.symbolic, .fitStep 0 adapt id, .compile, .fitStep 0 adapt id, .fitStep 0 adapt id]).fbw = 5 ∧
    (s.run .fused [.symbolic, .eagerStep adapt id, .fitStep 0 adapt id, .fitStep 0 adapt id]).fbw = 5 ∧
    (s.run .batchNorm [.symbolic, .fitStep 0 adapt id, .call adapt]).fbw = 6 := by
  decide

/-! ### all histories -/

/-- the bitwidths after the first training step was one of `model.fit` with signature `sig`: until the next `model.compile` every step of
`model.fit` with this signature adapts again -/
def adaptedWhileCompiled (sig : ℕ) (f : F) : List (Use F) → F
  | [] => f
  | .compile :: us => optimizerOnly f us
  | .eagerStep _ opt :: us => adaptedWhileCompiled sig (opt f) us
  | .fitStep sig' adapt opt :: us => adaptedWhileCompiled sig (opt (if sig' = sig then adapt f else f)) us
  | _ :: us => adaptedWhileCompiled sig f us

/-- the bitwidths a fused layer ends up with: as promised (`adaptedOnce`), except for what follows a first step of `model.fit` -/
def adaptedActually (f : F) : List (Use F) → F
  | [] => f
  | .eagerStep adapt opt :: us => optimizerOnly (opt (adapt f)) us
  | .fitStep sig adapt opt :: us => adaptedWhileCompiled sig (opt (adapt f)) us
  | _ :: us => adaptedActually f us

theorem lookup_compiled {k : Kind} {s : Layer F} {t : Bool} {sig sig' : ℕ} {adapt opt : F → F} (hne : (t, sig') ≠ (true, sig))
    (hl : s.cache.lookup (true, sig) = some true) : (s.compiled k t sig' adapt opt).cache.lookup (true, sig) = some true := by
  unfold Layer.compiled
  split
  · exact hl
  · rw [List.lookup_cons, beq_false_of_ne hne.symm]
    exact hl

theorem OnlyFit.run_exact {sig : ℕ} : ∀ (us : List (Use F)) {s : Layer F}, OnlyFit sig s → s.cache.lookup (true, sig) = some true →
    (s.run .fused us).fbw = adaptedWhileCompiled sig s.fbw us
  | [], s, _, _ => rfl
  | .symbolic :: us, s, h, hl => by
    have : s.use .fused .symbolic = s := by simp [Layer.use, forward_done h.flags]
    change ((s.use .fused .symbolic).run .fused us).fbw = _
    rw [this]; exact OnlyFit.run_exact us h hl
  | .call adapt :: us, s, h, hl => by
    have : s.use .fused (.call adapt) = s := by simp [Layer.use, forward_done h.flags]
    change ((s.use .fused (.call adapt)).run .fused us).fbw = _
    rw [this]; exact OnlyFit.run_exact us h hl
  | .predict sig' adapt :: us, s, h, hl => by
    obtain ⟨h1, h2⟩ := h.compiled (k := .fused) (t := false) (sig' := sig') (by simp) adapt id
    have := OnlyFit.run_exact us h1 (lookup_compiled (by simp) hl)
    rw [h2] at this
    exact this
  | .eagerStep adapt opt :: us, s, h, hl => by
    have h1 : OnlyFit sig (s.use .fused (.eagerStep adapt opt)) := by
      simp only [Layer.use, forward_done h.flags]; exact ⟨h.flags, h.cache⟩
    have h2 : (s.use .fused (.eagerStep adapt opt)).fbw = opt s.fbw := by simp [Layer.use, forward_done h.flags]
    have := OnlyFit.run_exact us h1 (by simpa [Layer.use, forward_done h.flags] using hl)
    rw [h2] at this
    exact this
  | .fitStep sig' adapt opt :: us, s, h, hl => by
    unfold adaptedWhileCompiled
    by_cases he : sig' = sig
    · subst he
      rw [if_pos rfl]
      have hu : s.use .fused (.fitStep sig' adapt opt) = { s with fbw := opt (adapt s.fbw) } := by
        simp [Layer.use, Layer.compiled, hl]
      change ((s.use .fused (.fitStep sig' adapt opt)).run .fused us).fbw = _
      rw [hu]
      exact OnlyFit.run_exact us ⟨h.flags, h.cache⟩ hl
    · rw [if_neg he]
      obtain ⟨h1, h2⟩ := h.compiled (k := .fused) (t := true) (sig' := sig') (by simpa using he) adapt opt
      have := OnlyFit.run_exact us h1 (lookup_compiled (by simpa using he) hl)
      rw [h2] at this
      exact this
  | .compile :: us, s, h, _ => Done.run us ⟨h.flags, by simp [Layer.use]⟩

/-- **C94**, exactly, `HDenseBatchNorm`: in every history of symbolic calls, inference, uncompiled and compiled training steps and
`model.compile`, the bitwidths are `adaptedActually`. -/
theorem C94_exact (adapt₀ : F → F) (f : F) (us : List (Use F)) :
    ((Layer.build adapt₀ f true true).run .fused us).fbw = adaptedActually f us := by
  have skip : ∀ (before rest : List (Use F)), (∀ u ∈ before, u.NoTraining) → adaptedActually f (before ++ rest) = adaptedActually f rest := by
    intro before rest hb
    induction before with
    | nil => rfl
    | cons u before ih =>
      have := ih fun v hv => hb v (List.mem_cons_of_mem _ hv)
      cases u with
      | eagerStep a o => exact absurd (hb _ (List.mem_cons_self ..)) id
      | fitStep s a o => exact absurd (hb _ (List.mem_cons_self ..)) id
      | _ => exact this
  -- split the history at the first training step
  have split : ∀ us : List (Use F), (∀ u ∈ us, u.NoTraining) ∨
      ∃ before u after, us = before ++ u :: after ∧ (∀ v ∈ before, v.NoTraining) ∧ ¬ u.NoTraining := by
    intro us
    induction us with
    | nil => exact .inl (by simp)
    | cons u us ih =>
      by_cases hu : u.NoTraining
      · rcases ih with h | ⟨b, v, a, rfl, h1, h2⟩
        · exact .inl fun v hv => by
            rcases List.mem_cons.mp hv with rfl | hv
            · exact hu
            · exact h v hv
        · refine .inr ⟨u :: b, v, a, rfl, fun w hw => ?_, h2⟩
          rcases List.mem_cons.mp hw with rfl | hw
          · exact hu
          · exact h1 w hw
      · exact .inr ⟨[], u, us, rfl, by simp, hu⟩
  rcases split us with h | ⟨before, u, after, rfl, hb, hu⟩
  · obtain ⟨-, h2⟩ := Waiting.run us (waiting_build adapt₀ f).1 h
    rw [h2, (waiting_build adapt₀ f).2]
    have := skip us [] h
    rw [List.append_nil] at this
    rw [this]; rfl
  · rw [skip before _ hb]
    cases u with
    | eagerStep adapt opt =>
      rw [C94_eager_first_partial adapt₀ f before after adapt opt hb, adaptedOnce_skip f before _ hb]
      rfl
    | fitStep sig adapt opt =>
      obtain ⟨h1, h2, h3⟩ := first_fit adapt₀ f before sig adapt opt hb
      have := OnlyFit.run_exact after h1 h3
      rw [h2] at this
      refine Eq.trans ?_ this
      unfold Layer.run
      simp [List.foldl_append]
    | symbolic => exact absurd trivial hu
    | call _ => exact absurd trivial hu
    | predict _ _ => exact absurd trivial hu
    | compile => exact absurd trivial hu

/-- The promise of C94 is kept in a history exactly if the two specifications agree on it; they differ for a second step of
`model.fit`, and agree again after `model.compile`. -/
example : let adapt := fun f : ℤ => f - 1
    adaptedActually (6 : ℤ) [.symbolic, .fitStep 0 adapt id, .predict 0 adapt, .fitStep 0 adapt id, .fitStep 1 adapt id, .compile, .fitStep 0 adapt id] = 4 ∧
    adaptedOnce (6 : ℤ) [.symbolic, .fitStep 0 adapt id, .predict 0 adapt, .fitStep 0 adapt id, .fitStep 1 adapt id, .compile, .fitStep 0 adapt id] = 5 := by
  decide

/-- `HBatchNormalization` in a functional model: the flag is cleared by the symbolic call, whose operations are thrown away, so
the bitwidths are never adapted. -/
theorem C94_batchnorm_never_adapts (adapt₀ : F → F) (f : F) (us : List (Use F)) :
    ((Layer.build adapt₀ f true true).run .batchNorm (.symbolic :: us)).fbw = optimizerOnly f us :=
  Done.run us ⟨rfl, by simp [Layer.build, Layer.use]⟩

end HGQ.Compiled
