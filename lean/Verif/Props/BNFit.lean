import Verif.Model.BNFit
import Verif.Props.BatchNorm

/-!
C88: the moving statistics over whole training histories.
-/

namespace HGQ

/-! ### means and variances -/

theorem sum_between {l : List ℚ} {lo hi : ℚ} (h : ∀ v ∈ l, lo ≤ v ∧ v ≤ hi) : l.length * lo ≤ l.sum ∧ l.sum ≤ l.length * hi := by
  induction l with
  | nil => simp
  | cons a l ih =>
    have ha := h a (by simp)
    have := ih fun v hv => h v (by simp [hv])
    simp only [List.sum_cons, List.length_cons]
    push_cast
    constructor <;> linarith [ha.1, ha.2, this.1, this.2]

theorem meanL_between {l : List ℚ} (hne : l ≠ []) {lo hi : ℚ} (h : ∀ v ∈ l, lo ≤ v ∧ v ≤ hi) : lo ≤ meanL l ∧ meanL l ≤ hi := by
  have hp : (0 : ℚ) < l.length := by exact_mod_cast List.length_pos_iff.mpr hne
  have := sum_between h
  unfold meanL
  rw [le_div_iff₀ hp, div_le_iff₀ hp]
  constructor <;> linarith [this.1, this.2]

theorem meanL_nonneg {l : List ℚ} (h : ∀ v ∈ l, 0 ≤ v) : 0 ≤ meanL l :=
  div_nonneg (List.sum_nonneg h) (Nat.cast_nonneg _)

theorem varL_nonneg (l : List ℚ) : 0 ≤ varL l := by
  refine meanL_nonneg fun v hv => ?_
  obtain ⟨w, -, rfl⟩ := List.mem_map.mp hv
  exact sq_nonneg _

/-- sum of squared deviations from any `m` -/
theorem sum_sq (l : List ℚ) (m : ℚ) : (l.map fun v => (v - m) ^ 2).sum = (l.map fun v => v ^ 2).sum - 2 * m * l.sum + l.length * m ^ 2 := by
  induction l with
  | nil => simp
  | cons a l ih => simp only [List.map_cons, List.sum_cons, ih, List.length_cons]; push_cast; ring

/-- Popoviciu's inequality: values in an interval of length `d` have a variance of at most `d²/4` -/
theorem varL_le {l : List ℚ} {lo hi : ℚ} (h : ∀ v ∈ l, lo ≤ v ∧ v ≤ hi) : varL l ≤ (hi - lo) ^ 2 / 4 := by
  by_cases hne : l = []
  · subst hne
    simp only [varL, meanL, List.map_nil, List.sum_nil, zero_div]
    positivity
  have hp : (0 : ℚ) < l.length := by exact_mod_cast List.length_pos_iff.mpr hne
  have hsum : ∀ l : List ℚ, (∀ v ∈ l, lo ≤ v ∧ v ≤ hi) →
      (l.map fun v => v ^ 2).sum ≤ (lo + hi) * l.sum - l.length * (lo * hi) := by
    intro l
    induction l with
    | nil => simp
    | cons a l ih =>
      intro h
      have ha := h a (by simp)
      have := ih fun v hv => h v (by simp [hv])
      have : 0 ≤ (a - lo) * (hi - a) := mul_nonneg (by linarith [ha.1]) (by linarith [ha.2])
      simp only [List.map_cons, List.sum_cons, List.length_cons]
      push_cast
      nlinarith
  have h1 := hsum l h
  unfold varL meanL
  rw [List.length_map, sum_sq, div_le_iff₀ hp]
  have e : l.sum = l.length * (l.sum / l.length) := by field_simp
  generalize l.sum / l.length = m at e ⊢
  rw [e] at h1 ⊢
  nlinarith [mul_nonneg hp.le (sq_nonneg (2 * m - lo - hi))]

/-! ### one step -/

/-- settings a training step does not change -/
theorem BNLayer.step_settings (b : BNLayer) (s : BNStep) :
    (b.step s).center = b.center ∧ (b.step s).scale = b.scale ∧ (b.step s).momentum = b.momentum ∧ (b.step s).eps = b.eps := by
  unfold BNLayer.step BNLayer.train BNLayer.withVars
  dsimp only
  split_ifs <;> exact ⟨rfl, rfl, rfl, rfl⟩

/-- values of channel `c` in the batch of a step, before the bias is added: what the layer computes with its kernel (with the
quantized one if `scale` is off) -/
def BNLayer.stepVals (b : BNLayer) (s : BNStep) (c : ℕ) : List ℚ := b.chanVals (if b.scale then s.kernel else s.qk) s.batch c

theorem stepVals_step (b : BNLayer) (s s' : BNStep) (c : ℕ) : (b.step s).stepVals s' c = b.stepVals s' c := by
  unfold BNLayer.stepVals BNLayer.step BNLayer.train BNLayer.withVars
  dsimp only
  split_ifs <;> rfl

theorem step_mean (b : BNLayer) (s : BNStep) (c : ℕ) : (b.step s).movingMean c =
    if b.center then b.momentum * b.movingMean c + (1 - b.momentum) * (meanL (b.stepVals s c) + s.bias c) else b.movingMean c := by
  unfold BNLayer.stepVals BNLayer.step BNLayer.train BNLayer.withVars
  dsimp only
  split_ifs <;> rfl

theorem step_var (b : BNLayer) (s : BNStep) (c : ℕ) : (b.step s).movingVar c =
    if b.scale then b.momentum * b.movingVar c + (1 - b.momentum) * varL (b.stepVals s c) else b.movingVar c := by
  unfold BNLayer.stepVals BNLayer.step BNLayer.train BNLayer.withVars
  dsimp only
  by_cases h1 : b.scale = true <;> by_cases h2 : b.center = true <;>
    simp only [h1, h2, if_true, Bool.false_eq_true, if_false] <;> rfl

/-! ### C88 -/

/-- the weighted average of `v` (weight `m^n`) and the entries of a list, the last entry with weight `1 - m`, the one before
with `(1 - m) * m`, and so on -/
def Spec.ema (m v : ℚ) (l : List ℚ) : ℚ :=
  m ^ l.length * v + (1 - m) * ((List.range l.length).map fun i => m ^ (l.length - 1 - i) * l.getD i 0).sum

theorem ema_nil (m v : ℚ) : Spec.ema m v [] = v := by simp [Spec.ema]

theorem ema_append (m v : ℚ) (l : List ℚ) (x : ℚ) : Spec.ema m v (l ++ [x]) = m * Spec.ema m v l + (1 - m) * x := by
  unfold Spec.ema
  have h : ((List.range (l ++ [x]).length).map fun i => m ^ ((l ++ [x]).length - 1 - i) * (l ++ [x]).getD i 0).sum =
      m * ((List.range l.length).map fun i => m ^ (l.length - 1 - i) * l.getD i 0).sum + x := by
    rw [List.length_append, List.length_singleton, List.range_succ, List.map_append, List.sum_append]
    congr 1
    · rw [← List.sum_map_mul_left]
      congr 1
      refine List.map_congr_left fun i hi => ?_
      have hi := List.mem_range.mp hi
      rw [show l.length + 1 - 1 - i = (l.length - 1 - i) + 1 by omega, pow_succ]
      simp only [List.getD_eq_getElem?_getD, List.getElem?_append_left hi]
      ring
    · simp
  rw [h, List.length_append, List.length_singleton, pow_succ]
  ring

/-- a list of statistics folded from the left is their exponential average -/
theorem fold_ema {σ : Type} (m v : ℚ) (f : σ → ℚ) (ss : List σ) :
    ss.foldl (fun v s => m * v + (1 - m) * f s) v = Spec.ema m v (ss.map f) := by
  induction ss using List.reverseRecOn with
  | nil => simp [ema_nil]
  | append_singleton ss s ih => rw [List.foldl_append, List.map_append, List.map_singleton, ema_append, ← ih]; rfl

theorem fit_cons (b : BNLayer) (s : BNStep) (ss : List BNStep) : b.fit (s :: ss) = (b.step s).fit ss := rfl

theorem fit_settings (b : BNLayer) (ss : List BNStep) :
    (b.fit ss).center = b.center ∧ (b.fit ss).scale = b.scale ∧ (b.fit ss).momentum = b.momentum ∧ (b.fit ss).eps = b.eps := by
  induction ss generalizing b with
  | nil => exact ⟨rfl, rfl, rfl, rfl⟩
  | cons s ss ih =>
    obtain ⟨h1, h2, h3, h4⟩ := ih (b.step s)
    obtain ⟨g1, g2, g3, g4⟩ := b.step_settings s
    rw [fit_cons]
    exact ⟨h1.trans g1, h2.trans g2, h3.trans g3, h4.trans g4⟩

theorem fit_mean (b : BNLayer) (ss : List BNStep) (c : ℕ) : (b.fit ss).movingMean c =
    if b.center then ss.foldl (fun v s => b.momentum * v + (1 - b.momentum) * (meanL (b.stepVals s c) + s.bias c)) (b.movingMean c)
    else b.movingMean c := by
  induction ss generalizing b with
  | nil => simp [BNLayer.fit]
  | cons s ss ih =>
    obtain ⟨h1, h2, h3, -⟩ := b.step_settings s
    rw [fit_cons, ih, h1, h3, step_mean]
    simp only [stepVals_step]
    split_ifs <;> rfl

theorem fit_var (b : BNLayer) (ss : List BNStep) (c : ℕ) : (b.fit ss).movingVar c =
    if b.scale then ss.foldl (fun v s => b.momentum * v + (1 - b.momentum) * varL (b.stepVals s c)) (b.movingVar c)
    else b.movingVar c := by
  induction ss generalizing b with
  | nil => simp [BNLayer.fit]
  | cons s ss ih =>
    obtain ⟨h1, h2, h3, -⟩ := b.step_settings s
    rw [fit_cons, ih, h2, h3, step_var]
    simp only [stepVals_step]
    split_ifs <;> rfl

/-- **C88**, value: after any training history the moving mean and the moving variance of a channel are the exponential averages
of their initial values and the means (bias included) and variances of the batches, whatever the optimizer did in between.
Statistics that are switched off keep their values. -/
theorem C88_value (b : BNLayer) (ss : List BNStep) (c : ℕ) :
    (b.fit ss).movingMean c = (if b.center then
      Spec.ema b.momentum (b.movingMean c) (ss.map fun s => meanL (b.stepVals s c) + s.bias c) else b.movingMean c) ∧
    (b.fit ss).movingVar c = (if b.scale then
      Spec.ema b.momentum (b.movingVar c) (ss.map fun s => varL (b.stepVals s c)) else b.movingVar c) := by
  rw [fit_mean, fit_var, fold_ema, fold_ema]
  exact ⟨rfl, rfl⟩

theorem step_affine (b : BNLayer) (s : BNStep) : (b.step s).gamma = (if b.scale then s.gamma else b.gamma) ∧
    (b.step s).beta = (if b.center then s.beta else b.beta) := by
  unfold BNLayer.step BNLayer.train BNLayer.withVars
  dsimp only
  split_ifs <;> exact ⟨rfl, rfl⟩

/-- **C88**, variables that are switched off: without `scale` no history changes the moving variance or the scale, without `center`
none changes the moving mean or the offset, whatever the optimizer does to the other variables; those that are on hold what the
optimizer left last. -/
theorem C88_switched_off (b : BNLayer) (ss : List BNStep) (s : BNStep) :
    (b.scale = false → (b.fit ss).gamma = b.gamma ∧ (b.fit ss).movingVar = b.movingVar) ∧
    (b.center = false → (b.fit ss).beta = b.beta ∧ (b.fit ss).movingMean = b.movingMean) ∧
    (b.scale = true → (b.fit (ss ++ [s])).gamma = s.gamma) ∧ (b.center = true → (b.fit (ss ++ [s])).beta = s.beta) := by
  have hlast : b.fit (ss ++ [s]) = (b.fit ss).step s := by unfold BNLayer.fit; rw [List.foldl_append]; rfl
  obtain ⟨h1, h2, -, -⟩ := fit_settings b ss
  refine ⟨fun h => ⟨?_, ?_⟩, fun h => ⟨?_, ?_⟩, fun h => ?_, fun h => ?_⟩
  · clear hlast h1 h2
    induction ss generalizing b with
    | nil => rfl
    | cons t ss ih =>
      rw [fit_cons, ih _ (by rw [(b.step_settings t).2.1]; exact h), (step_affine b t).1, h]; rfl
  · funext c; rw [(C88_value b ss c).2, h]; rfl
  · clear hlast h1 h2
    induction ss generalizing b with
    | nil => rfl
    | cons t ss ih =>
      rw [fit_cons, ih _ (by rw [(b.step_settings t).1]; exact h), (step_affine b t).2, h]; rfl
  · funext c; rw [(C88_value b ss c).1, h]; rfl
  · rw [hlast, (step_affine _ s).1, h2, h]; rfl
  · rw [hlast, (step_affine _ s).2, h1, h]; rfl

theorem fold_between {σ : Type} {m v lo hi : ℚ} {f : σ → ℚ} {ss : List σ} (hm : 0 ≤ m) (hm1 : m ≤ 1) (hv : lo ≤ v ∧ v ≤ hi)
    (hf : ∀ s ∈ ss, lo ≤ f s ∧ f s ≤ hi) : lo ≤ ss.foldl (fun v s => m * v + (1 - m) * f s) v ∧
      ss.foldl (fun v s => m * v + (1 - m) * f s) v ≤ hi := by
  induction ss generalizing v with
  | nil => exact hv
  | cons s ss ih =>
    have h := hf s (by simp)
    refine ih ⟨?_, ?_⟩ fun s hs => hf s (by simp [hs])
    · nlinarith [mul_le_mul_of_nonneg_left hv.1 hm, mul_le_mul_of_nonneg_left h.1 (sub_nonneg.mpr hm1)]
    · nlinarith [mul_le_mul_of_nonneg_left hv.2 hm, mul_le_mul_of_nonneg_left h.2 (sub_nonneg.mpr hm1)]

/-- **C88**, mean: if the initial moving mean and everything the layer computed for the channel in training (bias included) lie
in an interval, so does the moving mean after training. -/
theorem C88_mean_between (b : BNLayer) (ss : List BNStep) (c : ℕ) (lo hi : ℚ) (hm : 0 ≤ b.momentum) (hm1 : b.momentum ≤ 1)
    (h0 : lo ≤ b.movingMean c ∧ b.movingMean c ≤ hi) (hne : ∀ s ∈ ss, b.stepVals s c ≠ [])
    (hv : ∀ s ∈ ss, ∀ v ∈ b.stepVals s c, lo ≤ v + s.bias c ∧ v + s.bias c ≤ hi) :
    lo ≤ (b.fit ss).movingMean c ∧ (b.fit ss).movingMean c ≤ hi := by
  rw [fit_mean]
  split_ifs
  · refine fold_between hm hm1 h0 fun s hs => ?_
    have := meanL_between (hne s hs) (lo := lo - s.bias c) (hi := hi - s.bias c) fun v hw => by
      have := hv s hs v hw
      constructor <;> linarith [this.1, this.2]
    constructor <;> linarith [this.1, this.2]
  · exact h0

/-- **C88**, variance: the moving variance never becomes negative, so the argument of `rsqrt` is positive in training and at
inference; and if everything the layer computed for the channel lies in an interval of length `d`, the variance is at most
the maximum of its initial value and `d²/4`. -/
theorem C88_var_nonneg (b : BNLayer) (ss : List BNStep) (c : ℕ) (hm : 0 ≤ b.momentum) (hm1 : b.momentum ≤ 1)
    (h0 : 0 ≤ b.movingVar c) : 0 ≤ (b.fit ss).movingVar c ∧ (0 < b.eps → 0 < (b.fit ss).movingVar c + (b.fit ss).eps) ∧
      ∀ lo d : ℚ, (∀ s ∈ ss, ∀ v ∈ b.stepVals s c, lo ≤ v ∧ v ≤ lo + d) →
        (b.fit ss).movingVar c ≤ max (b.movingVar c) (d ^ 2 / 4) := by
  have h : 0 ≤ (b.fit ss).movingVar c := by
    rw [fit_var]
    split_ifs
    · obtain ⟨hi, hhi⟩ : ∃ hi : ℚ, b.movingVar c ≤ hi ∧ ∀ s ∈ ss, varL (b.stepVals s c) ≤ hi := by
        refine ⟨b.movingVar c + (ss.map fun s => varL (b.stepVals s c)).sum, ?_, fun s hs => ?_⟩
        · have : 0 ≤ (ss.map fun s => varL (b.stepVals s c)).sum := List.sum_nonneg fun v hv => by
            obtain ⟨w, -, rfl⟩ := List.mem_map.mp hv
            exact varL_nonneg _
          linarith
        · have := List.single_le_sum (l := ss.map fun s => varL (b.stepVals s c)) (fun v hv => by
            obtain ⟨w, -, rfl⟩ := List.mem_map.mp hv
            exact varL_nonneg _) _ (List.mem_map_of_mem hs)
          linarith
      exact (fold_between hm hm1 ⟨h0, hhi.1⟩ fun s hs => ⟨varL_nonneg _, hhi.2 s hs⟩).1
    · exact h0
  refine ⟨h, fun he => ?_, fun lo d hv => ?_⟩
  · rw [(fit_settings b ss).2.2.2]
    linarith
  · rw [fit_var]
    split_ifs
    · refine (fold_between hm hm1 (lo := 0) ⟨h0, le_max_left _ _⟩ fun s hs => ⟨varL_nonneg _, ?_⟩).2
      have := varL_le (hv s hs)
      rw [add_sub_cancel_left] at this
      exact this.trans (le_max_right _ _)
    · exact le_max_left _ _

/-- **C88** for `HBatchNormalization`: both statistics are exponential averages of the initial value and the statistics of the
batches; the mean stays in every interval that contains its initial value and all values seen; the variance stays
non-negative. -/
theorem C88_layer (b : BNorm) (ss : List (ℚ × ℚ × List ℚ)) :
    (b.fit ss).movingMean = Spec.ema b.momentum b.movingMean (ss.map fun s => meanL s.2.2) ∧
    (b.fit ss).movingVar = Spec.ema b.momentum b.movingVar (ss.map fun s => varL s.2.2) ∧
    (0 ≤ b.momentum → b.momentum ≤ 1 →
      (∀ lo hi : ℚ, lo ≤ b.movingMean ∧ b.movingMean ≤ hi → (∀ s ∈ ss, s.2.2 ≠ [] ∧ ∀ v ∈ s.2.2, lo ≤ v ∧ v ≤ hi) →
        lo ≤ (b.fit ss).movingMean ∧ (b.fit ss).movingMean ≤ hi) ∧
      (0 ≤ b.movingVar → 0 ≤ (b.fit ss).movingVar)) := by
  have key : (b.fit ss).movingMean = ss.foldl (fun v s => b.momentum * v + (1 - b.momentum) * meanL s.2.2) b.movingMean ∧
      (b.fit ss).movingVar = ss.foldl (fun v s => b.momentum * v + (1 - b.momentum) * varL s.2.2) b.movingVar := by
    induction ss generalizing b with
    | nil => exact ⟨rfl, rfl⟩
    | cons s ss ih =>
      obtain ⟨h1, h2⟩ := ih (BNorm.train { b with gamma := s.1, beta := s.2.1 } s.2.2)
      refine ⟨h1.trans ?_, h2.trans ?_⟩
      · rw [List.foldl_cons]
        congr 1
        show b.movingMean - (b.movingMean - meanL s.2.2) * (1 - b.momentum) = _
        ring
      · rw [List.foldl_cons]
        congr 1
        show b.movingVar - (b.movingVar - varL s.2.2) * (1 - b.momentum) = _
        ring
  refine ⟨by rw [key.1, fold_ema], by rw [key.2, fold_ema], fun hm hm1 => ⟨fun lo hi h0 hv => ?_, fun h0 => ?_⟩⟩
  · rw [key.1]
    exact fold_between hm hm1 h0 fun s hs => meanL_between (hv s hs).1 (hv s hs).2
  · rw [key.2]
    clear key
    generalize b.movingVar = v at h0
    induction ss generalizing v with
    | nil => exact h0
    | cons s ss ih =>
      refine ih _ ?_
      have := varL_nonneg s.2.2
      have := mul_nonneg hm h0
      have := mul_nonneg (sub_nonneg.mpr hm1) (varL_nonneg s.2.2)
      linarith

/-- A momentum outside [0, 1], which the constructor accepts, makes the variance negative. -/
theorem C88_bad_momentum : ((({ exBN with momentum := 2 } : BNLayer).fit
    [⟨fun _ => 1, fun _ => 1, fun _ => 1, fun _ => 0, fun _ => 0, [[-10], [10]]⟩]).movingVar 0) = -92 := by decide +kernel

-- two steps with changing kernel and bias: hypotheses and values
example : let ss : List BNStep := [⟨fun _ => 1, fun _ => 1, fun _ => 1, fun _ => 0, fun _ => 0, [[0], [4]]⟩,
      ⟨fun _ => 2, fun _ => 0, fun _ => 3, fun _ => 1, fun _ => 0, [[1], [3], [2]]⟩]
    let b := { exBN with momentum := 1 / 2 }
    (ss.map fun s => b.stepVals s 0) = [[0, 4], [2, 6, 4]] ∧ (b.fit ss).movingMean 0 = 7 / 2 ∧ (b.fit ss).movingVar 0 = 10 / 3 := by
  decide +kernel

end HGQ
