import Verif.Lemmas.Quantizer
import Verif.Model.Dual
import Mathlib.Algebra.BigOperators.Intervals
import Mathlib.Algebra.BigOperators.Ring.Finset

/-!
Properties C10-C16 and C19: the HGQ quantizer itself.
-/

namespace HGQ

open Spec

/-! ### C10 -/

/-- C10: inference output is on the grid `2^-m`, `m` the bitwidth rounded to nearest (ties to even);
it is the nearest grid point (ties up), or for `floor` (code 3) the largest grid point not above the input. -/
theorem C10_inference_on_grid (c : QConf) (fbw x noise : ℚ) :
    ∃ m : ℤ, IsNearest fbw m ∧ (IsTie fbw → Even m) ∧
    ∃ n : ℤ, c.forward fbw x noise false = .ok (n * (2 : ℚ) ^ (-m)) ∧
      (c.strategy = 3 → (n : ℚ) * (2 : ℚ) ^ (-m) ≤ x ∧ x < (n + 1) * (2 : ℚ) ^ (-m)) ∧
      (c.strategy ≠ 3 → IsNearest (x * (2 : ℚ) ^ m) n ∧ (IsTie (x * (2 : ℚ) ^ m) → x * (2 : ℚ) ^ m < n)) := by
  have hb := tfRound_bounds fbw
  refine ⟨tfRound fbw, isNearest_of_abs_le_half hb, ?_, ?_⟩
  · rintro ⟨m, rfl⟩
    unfold tfRound
    have hf : ⌊(m : ℚ) + 1 / 2⌋ = m := flr_int_half m
    simp only [hf]
    have e : (m : ℚ) + 1 / 2 - m = 1 / 2 := by ring
    rw [e]
    simp only [lt_irrefl, if_false]
    split_ifs with h
    · exact Int.even_iff.mpr h
    · exact Int.even_iff.mpr (by omega)
  · have hpos := p2_pos (-(tfRound fbw))
    have hx : x = x * p2 (tfRound fbw) * p2 (-(tfRound fbw)) := by
      rw [mul_assoc, p2_mul_neg, mul_one]
    have hfw : ∀ st : ℤ, c.strategy = st → c.forward fbw x noise false = .ok (evalQ st fbw x) := by
      rintro st rfl
      unfold QConf.forward QConf.scale QConf.effStrategy evalQ
      by_cases h3 : c.strategy = 3
      · simp [h3, qRound, bind, Except.bind, pure, Except.pure]
      · simp [h3, qRound, bind, Except.bind, pure, Except.pure]
    by_cases h3 : c.strategy = 3
    · refine ⟨flr (x * p2 (tfRound fbw)), ?_, fun _ => ⟨?_, ?_⟩, fun h => absurd h3 h⟩
      · rw [hfw 3 h3, evalQ_floor]; rfl
      · change _ * p2 _ ≤ x
        conv_rhs => rw [hx]
        exact mul_le_mul_of_nonneg_right (flr_le _) hpos.le
      · change x < _ * p2 _
        conv_lhs => rw [hx]
        exact mul_lt_mul_of_pos_right (lt_flr_add_one _) hpos
    · refine ⟨flr (x * p2 (tfRound fbw) + 1 / 2), ?_, fun h => absurd h h3, fun _ => ⟨?_, ?_⟩⟩
      · rw [hfw _ rfl, evalQ_round h3]; rfl
      · apply isNearest_of_abs_le_half
        change |x * p2 (tfRound fbw) - _| ≤ _
        have := flr_le (x * p2 (tfRound fbw) + 1 / 2)
        have := lt_flr_add_one (x * p2 (tfRound fbw) + 1 / 2)
        rw [abs_le]; constructor <;> linarith
      · rintro ⟨t, ht⟩
        change x * p2 (tfRound fbw) = _ at ht
        change x * p2 (tfRound fbw) < _
        rw [ht]
        have : (t : ℚ) + 1 / 2 + 1 / 2 = ((t + 1 : ℤ) : ℚ) := by push_cast; ring
        rw [this, flr_int]; push_cast; linarith

/-- C10: quantizing an inference output again changes nothing. -/
theorem C10_idempotent (c : QConf) (fbw x noise noise' y : ℚ)
    (h : c.forward fbw x noise false = .ok y) : c.forward fbw y noise' false = .ok y := by
  have hfw : ∀ x noise, c.forward fbw x noise false = .ok (evalQ c.strategy fbw x) := by
    intro x noise
    unfold QConf.forward QConf.scale QConf.effStrategy evalQ
    by_cases h3 : c.strategy = 3
    · simp [h3, qRound, bind, Except.bind, pure, Except.pure]
    · simp [h3, qRound, bind, Except.bind, pure, Except.pure]
  rw [hfw] at h
  have hy : evalQ c.strategy fbw x = y := by injection h
  rw [hfw, ← hy]
  obtain ⟨n, hn⟩ := evalQ_grid c.strategy fbw x
  rw [hn, evalQ_of_grid]

-- 0.8 at 2.4 (rounds to 2) fractional bits: nearest multiple of 1/4 is 0.75
example : (QConf.mk 0 true (some (-23, 23)) (fun _ => 1) (7 / 10)).forward (12 / 5) (4 / 5) 0 false
    = .ok (3 / 4) := by decide +kernel

/-! ### C11 -/

/-- C11: inference never raises and is the pure function `evalQ`, whatever random numbers are drawn. -/
theorem C11_inference_total (c : QConf) (fbw x noise : ℚ) :
    c.forward fbw x noise false = .ok (evalQ c.strategy fbw x) := by
  unfold QConf.forward QConf.scale QConf.effStrategy evalQ
  by_cases h3 : c.strategy = 3
  · simp [h3, qRound, bind, Except.bind, pure, Except.pure]
  · simp [h3, qRound, bind, Except.bind, pure, Except.pure]

/-- C11: at inference every strategy but `floor` behaves as `standard_round`, for all noise values. -/
theorem C11_inference_is_standard_round (c : QConf) (hc : c.strategy ≠ strategyCode "floor")
    (fbw x noise noise' : ℚ) :
    c.forward fbw x noise false
      = ({ c with strategy := strategyCode "standard_round" }).forward fbw x noise' false := by
  rw [C11_inference_total, C11_inference_total]
  have h3 : c.strategy ≠ 3 := by simpa [strategyCode] using hc
  have h0 : strategyCode "standard_round" = 0 := by decide
  simp only [h0]
  rw [evalQ_round h3, evalQ_round (by norm_num)]

/-- C11: a strategy name the library does not know is rejected in training ... -/
theorem C11_unknown_name_rejected_in_training (name : String) (c : QConf) (hc : c.strategy = strategyCode name)
    (h : name ∉ ["standard_round", "stochastic_round", "fast_uniform_noise_injection", "floor"])
    (fbw x noise : ℚ) : ∃ e, c.forward fbw x noise true = .error e := by
  have : c.strategy = -1 := by
    rw [hc]; unfold strategyCode
    simp only [List.mem_cons, List.not_mem_nil, or_false, not_or] at h
    simp [h.1, h.2.1, h.2.2.1, h.2.2.2]
  refine ⟨"Unknown strategy", ?_⟩
  unfold QConf.forward QConf.effStrategy
  simp [this, qRound, bind, Except.bind]

/-- ... but silently accepted (as `standard_round`) at inference. -/
theorem C11_unknown_name_accepted_in_inference (name : String) (c : QConf) (hc : c.strategy = strategyCode name)
    (h : name ∉ ["standard_round", "stochastic_round", "fast_uniform_noise_injection", "floor"])
    (fbw x noise : ℚ) : c.forward fbw x noise false = .ok (evalQ 0 fbw x) := by
  have : c.strategy = -1 := by
    rw [hc]; unfold strategyCode
    simp only [List.mem_cons, List.not_mem_nil, or_false, not_or] at h
    simp [h.1, h.2.1, h.2.2.1, h.2.2.2]
  rw [C11_inference_total, evalQ_round (by omega), evalQ_round (by norm_num)]

example : "auto" ∉ ["standard_round", "stochastic_round", "fast_uniform_noise_injection", "floor"] := by decide
example : strategyCode "stochastic_round" ≠ strategyCode "floor" := by decide

/-! ### C12 -/

/-- C12: with `exact_q_value=True` and a deterministic strategy the training forward value equals the
inference value, for every `fbw` and input (any noise). -/
theorem C12_train_equals_inference (c : QConf) (he : c.exactQValue = true)
    (hs : c.strategy = strategyCode "standard_round" ∨ c.strategy = strategyCode "floor")
    (fbw x noise noise' : ℚ) :
    c.forward fbw x noise true = c.forward fbw x noise' false := by
  rw [C11_inference_total]
  have h0 : strategyCode "standard_round" = 0 := by decide
  have h3 : strategyCode "floor" = 3 := by decide
  rw [h0, h3] at hs
  unfold QConf.forward QConf.scale QConf.effStrategy
  rcases hs with hs | hs
  · simp [he, hs, qRound, bind, Except.bind, pure, Except.pure, evalQ]
  · simp [he, hs, qRound, bind, Except.bind, pure, Except.pure, evalQ]

/-- C12 is specific to `exact_q_value=True`: without it the two differ already for `fbw` not an integer. -/
theorem C12_needs_exact_q_value : ∃ (c : QConf) (fbw x : ℚ), c.exactQValue = false ∧
    c.strategy = strategyCode "standard_round" ∧ (∀ t : ℚ, 0 < c.pow2 t) ∧
    c.forward fbw x 0 true ≠ c.forward fbw x 0 false :=
  ⟨⟨0, false, none, fun _ => 7 / 5, 7 / 10⟩, 1 / 2, 1, rfl, by decide, fun _ => by norm_num, by decide +kernel⟩

example : (QConf.mk 3 true none (fun _ => 1) (69 / 100)).forward (13 / 10) (-7 / 3) 5 true = .ok (-5 / 2) := by
  decide +kernel

/-! ### C13 -/

/-- C13: the dual-number program computes the same values as the value program. -/
theorem C13_dual_value (c : QConf) (sd : ℚ) (fbw x : Dual) (noise : ℚ) (training : Bool) :
    (c.forwardD sd fbw x noise training).map (·.v) = c.forward fbw.v x.v noise training := by
  have hr : ∀ (z : Dual) (st : ℤ), (qRoundD z st noise).map (·.v) = qRound z.v st noise := by
    intro z st
    unfold qRoundD qRound
    dsimp only
    split_ifs <;> simp [Except.map, Dual.add, Dual.stop, Dual.const, Dual.neg]
  unfold QConf.forwardD QConf.forward
  have h1 := hr (Dual.mul x ⟨c.scale fbw.v training, if c.exactQValue || !training then 0 else sd⟩)
    (c.effStrategy training)
  change _ = qRound (x.v * c.scale fbw.v training) _ _ at h1
  simp only [bind, Except.bind]
  rw [← h1]
  cases qRoundD (Dual.mul x ⟨c.scale fbw.v training, if c.exactQValue || !training then 0 else sd⟩)
    (c.effStrategy training) noise with
  | error e => rfl
  | ok r =>
    cases training <;>
      simp [Except.map, pure, Except.pure, Dual.add, Dual.sub, Dual.mul, Dual.div, Dual.stop]

/-- C13: gradient of a training call: derivative of output = d(input) - (xq - x) * ln2 * d(fbw),
where `xq` is the output value. So 1 with respect to the input and -(xq-x)*ln2 with respect to `fbw`. -/
theorem C13_training_gradient (c : QConf) (sd : ℚ) (fbw x y : Dual) (noise : ℚ)
    (h : c.forwardD sd fbw x noise true = .ok y) :
    y.d = x.d - (y.v - x.v) * c.ln2 * fbw.d := by
  unfold QConf.forwardD at h
  simp only [bind, Except.bind] at h
  split at h
  · cases h
  · simp only [if_true, pure, Except.pure, Except.ok.injEq] at h
    subst h
    simp only [Dual.add, Dual.sub, Dual.mul, Dual.stop, Dual.const]
    ring

/-- C13: at inference the gradient passes straight through. -/
theorem C13_inference_gradient (c : QConf) (sd : ℚ) (fbw x y : Dual) (noise : ℚ)
    (h : c.forwardD sd fbw x noise false = .ok y) : y.d = x.d := by
  unfold QConf.forwardD at h
  simp only [bind, Except.bind] at h
  split at h
  · cases h
  · simp only [Bool.false_eq_true, if_false, pure, Except.pure, Except.ok.injEq] at h
    subst h
    simp only [Dual.add, Dual.stop]
    ring

/-- C13: `scale_grad` keeps the value and scales the gradient. -/
theorem C13_scale_grad (x : Dual) (s : ℚ) : (scaleGradD x s).v = x.v ∧ (scaleGradD x s).d = x.d * s := by
  unfold scaleGradD
  simp only [Dual.add, Dual.sub, Dual.mul, Dual.stop, Dual.const]
  constructor <;> ring

/-- C13: the reported fractional bits are the rounded bitwidth, with the gradient of the unrounded one. -/
theorem C13_fp_bits (fbw : Dual) : (fpBitsD fbw).v = tfRound fbw.v ∧ (fpBitsD fbw).d = fbw.d := by
  unfold fpBitsD
  simp only [Dual.add, Dual.sub, Dual.stop, Dual.const]
  constructor <;> ring

example : ∃ y, (QConf.mk 1 true none (fun _ => 1) (69 / 100)).forwardD 0 ⟨2, 1⟩ ⟨3 / 10, 0⟩ (1 / 10) true = .ok y ∧
    y = ⟨1 / 2, -(1 / 2 - 3 / 10) * (69 / 100)⟩ := ⟨_, rfl, by decide +kernel⟩

/-! ### C14 -/

/-- C14: stochastic rounding gives an adjacent integer, rounding up exactly when the uniform random number
is below the fractional part. -/
theorem C14_stochastic_adjacent (x u : ℚ) :
    (u < Int.fract x → qRound x (strategyCode "stochastic_round") u = .ok (⌊x⌋ + 1)) ∧
    (Int.fract x ≤ u → qRound x (strategyCode "stochastic_round") u = .ok ⌊x⌋) := by
  have h1 : strategyCode "stochastic_round" = 1 := by decide
  rw [h1]
  unfold qRound flr
  simp only [one_ne_zero, if_false, if_true]
  constructor
  · intro h
    have h' : u < x - (⌊x⌋ : ℚ) := h
    rw [if_pos h']
  · intro h
    have h' : ¬ u < x - (⌊x⌋ : ℚ) := not_lt.mpr h
    rw [if_neg h']

/-- the value, for use in sums -/
def stochVal (x u : ℚ) : ℚ := match qRound x 1 u with | .ok y => y | .error _ => 0

/-- C14: unbiasedness. When the random number is uniform on `{0, 1/N, ..., (N-1)/N}` (as a float
generator's output is) and the fractional part is a multiple of `1/N`, the mean of the rounded value is
exactly the input. -/
theorem C14_unbiased (x : ℚ) (N j : ℕ) (hN : 0 < N) (hx : Int.fract x = (j : ℚ) / N) :
    (∑ u ∈ Finset.range N, stochVal x ((u : ℚ) / N)) / N = x := by
  have hN' : (0 : ℚ) < N := by exact_mod_cast hN
  have hjN : j < N := by
    have := Int.fract_lt_one x
    rw [hx, div_lt_one hN'] at this
    exact_mod_cast this
  have hval : ∀ u : ℕ, stochVal x ((u : ℚ) / N) = (⌊x⌋ : ℚ) + (if u < j then 1 else 0) := by
    intro u
    have hs : strategyCode "stochastic_round" = 1 := by decide
    obtain ⟨h1, h2⟩ := C14_stochastic_adjacent x ((u : ℚ) / N)
    rw [hs] at h1 h2
    unfold stochVal
    split_ifs with h
    · rw [h1 (by rw [hx]; exact (div_lt_div_iff_of_pos_right hN').mpr (by exact_mod_cast h))]
    · rw [h2 (by rw [hx]; exact (div_le_div_iff_of_pos_right hN').mpr (by exact_mod_cast (not_lt.mp h)))]
      simp
  simp only [hval]
  rw [Finset.sum_add_distrib, Finset.sum_const, Finset.card_range, Finset.sum_ite]
  have hcard : (Finset.filter (fun u => u < j) (Finset.range N)) = Finset.range j := by
    ext u; simp only [Finset.mem_filter, Finset.mem_range]; omega
  rw [hcard]
  simp only [Finset.sum_const, Finset.card_range, nsmul_eq_mul, mul_one]
  have := Int.floor_add_fract x
  rw [hx] at this
  field_simp at this ⊢
  linarith

example : Int.fract (19 / 8 : ℚ) = ((3 : ℕ) : ℚ) / (8 : ℕ) := by decide +kernel

/-! ### C15 -/

/-- things that happen to a quantizer during its life -/
inductive QOp
  | call (noise : ℕ → ℕ → ℚ) (training record : Bool) (xs : List (List ℚ))
  /-- an optimizer step, weight loading or `adapt_bw_bits`: arbitrary new bitwidths -/
  | setFbw (fbw : ℕ → ℚ)
  | reset

/-- one operation; the output of operations other than `call` is `[]` -/
def QConf.step (c : QConf) (elem : ℕ → ℕ) (s : QState) : QOp → Except String (QState × List (List ℚ))
  | .call noise training record xs => c.call elem s noise training record xs
  | .setFbw fbw => .ok ({ s with fbw := fbw }, [])
  | .reset => .ok (s.reset, [])

/-- `Reach c elem s tr`: state `s` is reachable from a freshly built quantizer (`init_minmax` resets the
record, bitwidths arbitrary) by the operations and outputs in the trace `tr`. -/
inductive Reach (c : QConf) (elem : ℕ → ℕ) : QState → List (QOp × List (List ℚ)) → Prop
  | init (fbw : ℕ → ℚ) : Reach c elem ⟨fbw, fun _ => ⊤, fun _ => ⊥⟩ []
  | step {s s' tr op out} : Reach c elem s tr → c.step elem s op = .ok (s', out) →
      Reach c elem s' (tr ++ [(op, out)])

/-- C15: after any history whose last bitwidth-changing event precedes a call, all bitwidths are in
the clip range; and that call computed its output with those bitwidths. -/
theorem C15_clip_invariant (c : QConf) (elem : ℕ → ℕ) (lo hi : ℚ) (hlh : lo ≤ hi) (hc : c.bwClip = some (lo, hi))
    (s : QState) (tr post : List (QOp × List (List ℚ))) (noise : ℕ → ℕ → ℚ) (training record : Bool)
    (xs out : List (List ℚ))
    (hr : Reach c elem s (tr ++ (.call noise training record xs, out) :: post))
    (hpost : ∀ p ∈ post, ∀ fbw, p.1 ≠ .setFbw fbw) :
    (∀ e, lo ≤ s.fbw e ∧ s.fbw e ≤ hi) ∧ c.forwardBatch elem s.fbw noise training xs = .ok out := by
  have hclip : ∀ f : ℚ, lo ≤ c.clip f ∧ c.clip f ≤ hi := by
    intro f; unfold QConf.clip; rw [hc]; unfold clipByValue
    exact ⟨le_max_right _ _, max_le (min_le_right _ _) hlh⟩
  have hfix : ∀ f : ℚ, lo ≤ f → f ≤ hi → c.clip f = f := by
    intro f h1 h2; unfold QConf.clip; rw [hc]; unfold clipByValue
    simp [h1, h2]
  have hcall : ∀ {s s' : QState} {noise training record xs out},
      c.call elem s noise training record xs = .ok (s', out) →
      s'.fbw = (fun e => c.clip (s.fbw e)) ∧ c.forwardBatch elem s'.fbw noise training xs = .ok out := by
    intro s s' noise training record xs out h
    unfold QConf.call at h
    simp only [bind, Except.bind] at h
    split at h
    · cases h
    · rename_i xq hxq
      split_ifs at h
      · simp only [pure, Except.pure, Except.ok.injEq, Prod.mk.injEq] at h
        obtain ⟨rfl, rfl⟩ := h
        exact ⟨rfl, hxq⟩
      · simp only [pure, Except.pure, Except.ok.injEq, Prod.mk.injEq] at h
        obtain ⟨rfl, rfl⟩ := h
        exact ⟨rfl, hxq⟩
  generalize htr : tr ++ (.call noise training record xs, out) :: post = full at hr
  induction hr generalizing tr post with
  | init fbw => simp at htr
  | @step s1 s2 tr1 op out1 hreach hstep ih =>
    rcases List.eq_nil_or_concat post with rfl | ⟨post', last, rfl⟩
    · have htr' : tr ++ [(QOp.call noise training record xs, out)] = tr1 ++ [(op, out1)] := htr
      obtain ⟨-, h2⟩ := List.append_inj' htr' rfl
      simp only [List.cons.injEq, Prod.mk.injEq, and_true] at h2
      obtain ⟨rfl, rfl⟩ := h2
      obtain ⟨h1, h2⟩ := hcall hstep
      exact ⟨fun e => by rw [h1]; exact hclip _, h2⟩
    · have htr' : (tr ++ (QOp.call noise training record xs, out) :: post') ++ [last] = tr1 ++ [(op, out1)] := by
        rw [← htr]; simp
      obtain ⟨h1, h2⟩ := List.append_inj' htr' rfl
      simp only [List.cons.injEq, and_true] at h2
      subst h2
      obtain ⟨ih1, ih2⟩ := ih tr post' (fun p hp => hpost p (by simp [hp])) h1
      have hne := hpost (op, out1) (by simp)
      cases op with
      | setFbw f => exact absurd rfl (hne f)
      | reset =>
        simp only [QConf.step, Except.ok.injEq, Prod.mk.injEq] at hstep
        obtain ⟨rfl, -⟩ := hstep
        exact ⟨ih1, ih2⟩
      | call n t r x =>
        obtain ⟨h1, -⟩ := hcall hstep
        have : s2.fbw = s1.fbw := by
          rw [h1]; funext e; exact hfix _ (ih1 e).1 (ih1 e).2
        rw [this]; exact ⟨ih1, ih2⟩

-- an out-of-range bitwidth (50) is clipped by the first call
example : ∃ s out, Reach ⟨0, true, some (-23, 23), fun _ => 1, 7 / 10⟩ id s
      ([] ++ (.call (fun _ _ => 0) false true [[1 / 3]], out) :: []) ∧ s.fbw 0 = 23 := by
  refine ⟨_, _, .step (.init (fun _ => 50)) rfl, by decide +kernel⟩

/-! ### C16 -/

/-- value `v` was recorded at element `e` since the last reset -/
def RecordedSinceReset (elem : ℕ → ℕ) (tr : List (QOp × List (List ℚ))) (e : ℕ) (v : ℚ) : Prop :=
  ∃ pre noise training xs out post,
    tr = pre ++ (.call noise training true xs, out) :: post ∧
    (∀ p ∈ post, p.1 ≠ .reset) ∧
    ∃ sample ∈ out, ∃ p, sample[p]? = some v ∧ elem p = e

theorem mem_batchPairs {elem : ℕ → ℕ} {out : List (List ℚ)} {e : ℕ} {v : ℚ} :
    (e, v) ∈ batchPairs elem out ↔ ∃ sample ∈ out, ∃ p, sample[p]? = some v ∧ elem p = e := by
  unfold batchPairs
  simp only [List.mem_flatMap, List.mem_map, Prod.mk.injEq, Prod.exists, List.mem_zipIdx_iff_getElem?]
  constructor
  · rintro ⟨s, hs, a, p, h1, h2, rfl⟩; exact ⟨s, hs, p, h1, h2⟩
  · rintro ⟨s, hs, p, h1, h2⟩; exact ⟨s, hs, v, p, h1, h2, rfl⟩

theorem reduceMin_le {e : ℕ} {v : ℚ} {ps : List (ℕ × ℚ)} (h : (e, v) ∈ ps) :
    reduceMin e ps ≤ (v : WithTop ℚ) := by
  unfold reduceMin
  induction ps with
  | nil => simp at h
  | cons p t ih =>
    rw [List.filter_cons]
    rcases List.mem_cons.mp h with rfl | h'
    · simp
    · split_ifs
      · simp only [List.map_cons, List.foldr_cons]; exact min_le_of_right_le (ih h')
      · exact ih h'

theorem reduceMin_mem {e : ℕ} {m : ℚ} {ps : List (ℕ × ℚ)} (h : reduceMin e ps = (m : WithTop ℚ)) :
    (e, m) ∈ ps := by
  unfold reduceMin at h
  induction ps with
  | nil => simp at h
  | cons p t ih =>
    rw [List.filter_cons] at h
    split_ifs at h with hp
    · simp only [List.map_cons, List.foldr_cons] at h
      rcases min_choice ((p.2 : ℚ) : WithTop ℚ) (((t.filter (fun p => p.1 = e)).map (fun p => (p.2 : WithTop ℚ))).foldr min ⊤) with e1 | e1
      · rw [e1] at h
        have : p.2 = m := by exact_mod_cast h
        have hp' : p.1 = e := by simpa using hp
        rw [← this, ← hp']; simp
      · rw [e1] at h; exact List.mem_cons_of_mem _ (ih h)
    · exact List.mem_cons_of_mem _ (ih h)

theorem le_reduceMax {e : ℕ} {v : ℚ} {ps : List (ℕ × ℚ)} (h : (e, v) ∈ ps) :
    (v : WithBot ℚ) ≤ reduceMax e ps := by
  unfold reduceMax
  induction ps with
  | nil => simp at h
  | cons p t ih =>
    rw [List.filter_cons]
    rcases List.mem_cons.mp h with rfl | h'
    · simp
    · split_ifs
      · simp only [List.map_cons, List.foldr_cons]; exact le_max_of_le_right (ih h')
      · exact ih h'

theorem reduceMax_mem {e : ℕ} {m : ℚ} {ps : List (ℕ × ℚ)} (h : reduceMax e ps = (m : WithBot ℚ)) :
    (e, m) ∈ ps := by
  unfold reduceMax at h
  induction ps with
  | nil => simp at h
  | cons p t ih =>
    rw [List.filter_cons] at h
    split_ifs at h with hp
    · simp only [List.map_cons, List.foldr_cons] at h
      rcases max_choice ((p.2 : ℚ) : WithBot ℚ) (((t.filter (fun p => p.1 = e)).map (fun p => (p.2 : WithBot ℚ))).foldr max ⊥) with e1 | e1
      · rw [e1] at h
        have : p.2 = m := by exact_mod_cast h
        have hp' : p.1 = e := by simpa using hp
        rw [← this, ← hp']; simp
      · rw [e1] at h; exact List.mem_cons_of_mem _ (ih h)
    · exact List.mem_cons_of_mem _ (ih h)

/-- C16: after any history, the recorded minimum / maximum of an element are exactly the least / greatest
value recorded at that element since the last reset (and `+inf` / `-inf` if there is none). -/
theorem C16_record_is_extrema (c : QConf) (elem : ℕ → ℕ) (s : QState) (tr : List (QOp × List (List ℚ)))
    (hr : Reach c elem s tr) (e : ℕ) :
    (∀ v, RecordedSinceReset elem tr e v → s.mn e ≤ (v : WithTop ℚ) ∧ (v : WithBot ℚ) ≤ s.mx e) ∧
    (∀ m : ℚ, s.mn e = (m : WithTop ℚ) → RecordedSinceReset elem tr e m) ∧
    (∀ m : ℚ, s.mx e = (m : WithBot ℚ) → RecordedSinceReset elem tr e m) := by
  -- extending the trace by a non-reset operation
  have hext : ∀ {tr op out v}, op ≠ QOp.reset → RecordedSinceReset elem tr e v →
      RecordedSinceReset elem (tr ++ [(op, out)]) e v := by
    rintro tr op out v hop ⟨pre, noise, training, xs, o, post, rfl, hpost, hv⟩
    refine ⟨pre, noise, training, xs, o, post ++ [(op, out)], by simp, ?_, hv⟩
    intro p hp
    rcases List.mem_append.mp hp with h | h
    · exact hpost p h
    · simp at h; rw [h]; exact hop
  have hback : ∀ {tr op out v}, RecordedSinceReset elem (tr ++ [(op, out)]) e v →
      op ≠ QOp.reset ∧ (RecordedSinceReset elem tr e v ∨
        ∃ noise training xs, op = .call noise training true xs ∧ (e, v) ∈ batchPairs elem out) := by
    rintro tr op out v ⟨pre, noise, training, xs, o, post, htr, hpost, hv⟩
    rcases List.eq_nil_or_concat post with rfl | ⟨post', last, rfl⟩
    · obtain ⟨h1, h2⟩ := List.append_inj' htr rfl
      simp only [List.cons.injEq, Prod.mk.injEq, and_true] at h2
      obtain ⟨rfl, rfl⟩ := h2
      exact ⟨by simp, .inr ⟨noise, training, xs, rfl, mem_batchPairs.mpr hv⟩⟩
    · have htr' : tr ++ [(op, out)] = (pre ++ (.call noise training true xs, o) :: post') ++ [last] := by
        rw [htr]; simp
      obtain ⟨h1, h2⟩ := List.append_inj' htr' rfl
      simp only [List.cons.injEq, and_true] at h2
      refine ⟨?_, .inl ⟨pre, noise, training, xs, o, post', h1, fun p hp => hpost p (by simp [hp]), hv⟩⟩
      have := hpost last (by simp)
      rw [← h2] at this; exact this
  have hcall : ∀ {s s' : QState} {noise training record xs out},
      c.call elem s noise training record xs = .ok (s', out) →
      (record = true → s'.mn e = min (reduceMin e (batchPairs elem out)) (s.mn e) ∧
        s'.mx e = max (reduceMax e (batchPairs elem out)) (s.mx e)) ∧
      (record = false → s'.mn e = s.mn e ∧ s'.mx e = s.mx e) := by
    intro s s' noise training record xs out h
    unfold QConf.call at h
    simp only [bind, Except.bind] at h
    split at h
    · cases h
    · rename_i xq hxq
      split_ifs at h with hrec
      · simp only [pure, Except.pure, Except.ok.injEq, Prod.mk.injEq] at h
        obtain ⟨rfl, rfl⟩ := h
        exact ⟨fun _ => ⟨rfl, rfl⟩, fun h => by simp [hrec] at h⟩
      · simp only [pure, Except.pure, Except.ok.injEq, Prod.mk.injEq] at h
        obtain ⟨rfl, rfl⟩ := h
        exact ⟨fun h => absurd h hrec, fun _ => ⟨rfl, rfl⟩⟩
  induction hr with
  | init fbw =>
    refine ⟨?_, ?_, ?_⟩
    · rintro v ⟨pre, _, _, _, _, _, h, _⟩; simp at h
    · intro m h; simp at h
    · intro m h; simp at h
  | @step s1 s2 tr1 op out1 hreach hstep ih =>
    obtain ⟨ih1, ih2, ih3⟩ := ih
    cases op with
    | setFbw f =>
      simp only [QConf.step, Except.ok.injEq, Prod.mk.injEq] at hstep
      obtain ⟨rfl, rfl⟩ := hstep
      refine ⟨fun v hv => ?_, fun m hm => hext (by simp) (ih2 m hm), fun m hm => hext (by simp) (ih3 m hm)⟩
      rcases (hback hv).2 with h | ⟨_, _, _, h, _⟩
      · exact ih1 v h
      · simp at h
    | reset =>
      simp only [QConf.step, Except.ok.injEq, Prod.mk.injEq] at hstep
      obtain ⟨rfl, rfl⟩ := hstep
      refine ⟨fun v hv => absurd rfl (hback hv).1, fun m hm => ?_, fun m hm => ?_⟩
      · simp [QState.reset] at hm
      · simp [QState.reset] at hm
    | call noise training record xs =>
      obtain ⟨hT, hF⟩ := hcall hstep
      cases record with
      | false =>
        obtain ⟨e1, e2⟩ := hF rfl
        rw [e1, e2]
        refine ⟨fun v hv => ?_, fun m hm => hext (by simp) (ih2 m hm), fun m hm => hext (by simp) (ih3 m hm)⟩
        rcases (hback hv).2 with h | ⟨_, _, _, h, _⟩
        · exact ih1 v h
        · simp at h
      | true =>
        obtain ⟨e1, e2⟩ := hT rfl
        rw [e1, e2]
        have hnew : ∀ v, (e, v) ∈ batchPairs elem out1 →
            RecordedSinceReset elem (tr1 ++ [(.call noise training true xs, out1)]) e v := by
          intro v hv
          exact ⟨tr1, noise, training, xs, out1, [], rfl, by simp, mem_batchPairs.mp hv⟩
        refine ⟨fun v hv => ?_, fun m hm => ?_, fun m hm => ?_⟩
        · rcases (hback hv).2 with h | ⟨_, _, _, _, h⟩
          · exact ⟨min_le_of_right_le (ih1 v h).1, le_max_of_le_right (ih1 v h).2⟩
          · exact ⟨min_le_of_left_le (reduceMin_le h), le_max_of_le_left (le_reduceMax h)⟩
        · rcases min_choice (reduceMin e (batchPairs elem out1)) (s1.mn e) with h | h
          · rw [h] at hm; exact hnew m (reduceMin_mem hm)
          · rw [h] at hm; exact hext (by simp) (ih2 m hm)
        · rcases max_choice (reduceMax e (batchPairs elem out1)) (s1.mx e) with h | h
          · rw [h] at hm; exact hnew m (reduceMax_mem hm)
          · rw [h] at hm; exact hext (by simp) (ih3 m hm)

theorem reduceMin_append (e : ℕ) (a b : List (ℕ × ℚ)) : reduceMin e (a ++ b) = min (reduceMin e a) (reduceMin e b) := by
  unfold reduceMin
  induction a with
  | nil => simp
  | cons p t ih =>
    rw [List.cons_append, List.filter_cons, List.filter_cons]
    split_ifs
    · simp only [List.map_cons, List.foldr_cons, ih, min_assoc]
    · exact ih

theorem reduceMax_append (e : ℕ) (a b : List (ℕ × ℚ)) : reduceMax e (a ++ b) = max (reduceMax e a) (reduceMax e b) := by
  unfold reduceMax
  induction a with
  | nil => simp
  | cons p t ih =>
    rw [List.cons_append, List.filter_cons, List.filter_cons]
    split_ifs
    · simp only [List.map_cons, List.foldr_cons, ih, max_assoc]
    · exact ih

theorem reduceMin_perm (e : ℕ) {a b : List (ℕ × ℚ)} (h : a.Perm b) : reduceMin e a = reduceMin e b := by
  induction h with
  | nil => rfl
  | cons x _ ih =>
    unfold reduceMin at *
    rw [List.filter_cons, List.filter_cons]; split_ifs
    · simp only [List.map_cons, List.foldr_cons, ih]
    · exact ih
  | swap x y l =>
    unfold reduceMin
    simp only [List.filter_cons]
    split_ifs <;> simp [min_left_comm]
  | trans _ _ ih1 ih2 => rw [ih1, ih2]

theorem reduceMax_perm (e : ℕ) {a b : List (ℕ × ℚ)} (h : a.Perm b) : reduceMax e a = reduceMax e b := by
  induction h with
  | nil => rfl
  | cons x _ ih =>
    unfold reduceMax at *
    rw [List.filter_cons, List.filter_cons]; split_ifs
    · simp only [List.map_cons, List.foldr_cons, ih]
    · exact ih
  | swap x y l =>
    unfold reduceMax
    simp only [List.filter_cons]
    split_ifs <;> simp [max_left_comm]
  | trans _ _ ih1 ih2 => rw [ih1, ih2]

theorem record_append (s : QState) (elem : ℕ → ℕ) (a b : List (List ℚ)) :
    (s.record elem a).record elem b = s.record elem (a ++ b) := by
  unfold QState.record batchPairs
  simp only [List.flatMap_append, reduceMin_append, reduceMax_append, QState.mk.injEq, true_and]
  constructor <;> funext e
  · rw [← min_assoc, min_comm (reduceMin e _) (reduceMin e _)]
  · rw [← max_assoc, max_comm (reduceMax e _) (reduceMax e _)]

theorem record_nil (s : QState) (elem : ℕ → ℕ) : s.record elem [] = s := by
  unfold QState.record batchPairs reduceMin reduceMax; simp

theorem record_perm (s : QState) (elem : ℕ → ℕ) {a b : List (List ℚ)} (h : a.Perm b) :
    s.record elem a = s.record elem b := by
  unfold QState.record batchPairs
  simp only [QState.mk.injEq, true_and]
  constructor <;> funext e
  · rw [reduceMin_perm e (h.flatMap_right _)]
  · rw [reduceMax_perm e (h.flatMap_right _)]

theorem foldl_record (s : QState) (elem : ℕ → ℕ) (bs : List (List (List ℚ))) :
    bs.foldl (fun s b => s.record elem b) s = s.record elem bs.flatten := by
  induction bs generalizing s with
  | nil => rw [List.flatten_nil, record_nil]; rfl
  | cons b t ih => rw [List.foldl_cons, ih, record_append]; simp

/-- C16: splitting and re-ordering batches does not change the record. -/
theorem C16_batching_irrelevant (s : QState) (elem : ℕ → ℕ) (bs bs' : List (List (List ℚ)))
    (h : bs.flatten.Perm bs'.flatten) :
    bs.foldl (fun s b => s.record elem b) s = bs'.foldl (fun s b => s.record elem b) s := by
  rw [foldl_record, foldl_record, record_perm s elem h]

example : ([[[1, 2], [3, 4]], [[5, 6]]] : List (List (List ℚ))).flatten.Perm
    ([[[5, 6]], [[1, 2]], [[3, 4]]] : List (List (List ℚ))).flatten := by decide

-- a history with a reset: only the values after the reset count
example : ∃ s tr, Reach ⟨0, true, none, fun _ => 1, 7 / 10⟩ (fun _ => 0) s tr ∧ s.mn 0 = ((2 : ℚ) : WithTop ℚ) ∧
    s.mx 0 = ((9 : ℚ) : WithBot ℚ) ∧ tr.length = 3 :=
  ⟨_, _, .step (op := .call (fun _ _ => 0) false true [[9, 2]])
    (.step (op := .reset) (.step (op := .call (fun _ _ => 0) false true [[-7, 20]]) (.init (fun _ => 0)) rfl) rfl) rfl,
    by decide +kernel, by decide +kernel, rfl⟩

/-! ### C19 -/

/-- C19: if some element has no finite recorded minimum and maximum, `get_bits_exact` raises. -/
theorem C19_untraced_refused (s : QState) (n : ℕ) (posOnly : Bool) (e : ℕ) (he : e < n)
    (h : s.mn e = ⊤ ∨ s.mx e = ⊥) : ∃ msg, s.getBitsExact n posOnly = .error msg := by
  refine ⟨"Some min values are larger than max values. Did you forget to run trace_minmax?", ?_⟩
  unfold QState.getBitsExact
  rw [if_neg]
  rw [List.all_eq_true]
  push Not
  refine ⟨e, List.mem_range.mpr he, ?_⟩
  rcases h with h | h
  · rw [h]; unfold rangeOk; simp
  · rw [h]; cases s.mn e <;> simp [rangeOk]

/-- C19: after a reset and no further recording call, `get_bits_exact` raises. -/
theorem C19_reset_then_refused (s : QState) (n : ℕ) (hn : 0 < n) (posOnly : Bool) :
    ∃ msg, s.reset.getBitsExact n posOnly = .error msg :=
  C19_untraced_refused _ n posOnly 0 hn (.inl rfl)

/-- C19: and it does not raise when every element has recorded something. -/
theorem C19_traced_accepted (s : QState) (n : ℕ) (posOnly : Bool)
    (h : ∀ e < n, ∃ lo hi : ℚ, s.mn e = (lo : WithTop ℚ) ∧ s.mx e = (hi : WithBot ℚ) ∧ lo ≤ hi) :
    ∃ b, s.getBitsExact n posOnly = .ok b ∧
      ∀ e < n, ∀ lo hi : ℚ, s.mn e = (lo : WithTop ℚ) → s.mx e = (hi : WithBot ℚ) →
        b e = bitsExact lo hi (s.fbw e) posOnly := by
  unfold QState.getBitsExact
  rw [if_pos]
  · refine ⟨_, rfl, ?_⟩
    intro e _ lo hi h1 h2
    simp only [h1, h2, WithTop.untopD_coe, WithBot.unbotD_coe]
  · rw [List.all_eq_true]
    intro e he
    obtain ⟨lo, hi, h1, h2, h3⟩ := h e (List.mem_range.mp he)
    rw [h1, h2]
    show decide (0 ≤ hi - lo) = true
    simp; exact h3

end HGQ
