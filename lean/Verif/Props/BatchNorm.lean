import Verif.Model.BatchNorm
import Mathlib.Tactic

/-!
C28, C29, C64: batch normalisation.
-/

namespace HGQ

/-- textbook batch normalisation of one value -/
def Spec.batchNorm (rsqrt : ℚ → ℚ) (gamma beta mean var eps y : ℚ) : ℚ := gamma * (y - mean) * rsqrt (var + eps) + beta

theorem meanL_map_add {l : List ℚ} (h : l ≠ []) (b : ℚ) : meanL (l.map (· + b)) = meanL l + b := by
  have hl : (l.length : ℚ) ≠ 0 := by
    have := List.length_pos_iff.mpr h
    exact_mod_cast this.ne'
  have : ∀ l : List ℚ, (l.map (· + b)).sum = l.sum + l.length * b := by
    intro l
    induction l with
    | nil => simp
    | cons a l ih => simp only [List.map_cons, List.sum_cons, ih, List.length_cons]; push_cast; ring
  unfold meanL
  rw [this, List.length_map]
  field_simp

/-! ### C28 -/

/-- the statistics of channel `c` of a batch equal the moving statistics -/
structure BNLayer.StatsAgree (b : BNLayer) (qk : ℕ → ℚ) (xs : List (List ℚ)) (c : ℕ) : Prop where
  nonempty : b.chanVals (if b.scale then b.kernel else qk) xs c ≠ []
  mean : b.center = true → b.movingMean c = b.batchMean qk xs c
  var : b.scale = true → b.movingVar c = varL (b.chanVals b.kernel xs c)

theorem BNLayer.train_bias (b : BNLayer) (qk : ℕ → ℚ) (xs : List (List ℚ)) (hc : b.center = true) :
    (b.train qk xs).bias = some fun c => b.bias c -
      (meanL (b.chanVals (if b.scale then b.kernel else qk) xs c) + b.bias c) *
        (if b.scale then b.gamma c * b.rsqrt (varL (b.chanVals (if b.scale then b.kernel else qk) xs c) + b.eps) else 1) := by
  unfold BNLayer.train
  simp only [hc, if_true]

/-- C28 for the kernel: if the moving variance equals the batch variance, training and inference quantize the same
kernel, for both settings of `scale`. -/
theorem C28_kernel (b : BNLayer) (qk : ℕ → ℚ) (xs : List (List ℚ)) (j : ℕ)
    (h : b.StatsAgree qk xs (b.kchan j)) :
    (b.train qk xs).kernel j = b.fusedKernel j := by
  unfold BNLayer.train BNLayer.fusedKernel
  cases hs : b.scale with
  | false => simp
  | true => simp [h.var hs]

/-- C28 for the bias, the exact difference between inference and training when the statistics agree (`scale` on):
inference additionally adds `bn_beta`. -/
theorem C28_bias_gap (b : BNLayer) (qk : ℕ → ℚ) (xs : List (List ℚ)) (c : ℕ)
    (h : b.StatsAgree qk xs c) (hc : b.center = true) (hs : b.scale = true) (hu : b.useBias = true) :
    ∃ tb, (b.train qk xs).bias = some tb ∧ b.inferBias c = tb c + b.beta c := by
  refine ⟨_, BNLayer.train_bias _ qk xs hc, ?_⟩
  have hm := h.mean hc
  have hv := h.var hs
  have hne := h.nonempty
  unfold BNLayer.batchMean at hm
  rw [meanL_map_add hne] at hm
  simp only [hs, if_true] at hm
  unfold BNLayer.inferBias BNLayer.fusedBias
  simp only [hc, hs, hu, Bool.not_true, Bool.false_eq_true, if_true, if_false, hm, hv]

/-- C28, the part that holds: with `scale` and `center` on and `bn_beta = 0` (its initial value), the bias quantized in
training equals the one of inference. Missing: `bn_beta ≠ 0` (`C28_beta_fails`), `center=False` with a bias
(`C28_no_center_fails`), `scale=False` (`C28_no_scale_fails`). -/
theorem C28_bias_partial (b : BNLayer) (qk : ℕ → ℚ) (xs : List (List ℚ)) (c : ℕ)
    (h : b.StatsAgree qk xs c) (hc : b.center = true) (hs : b.scale = true) (hu : b.useBias = true) (hb : b.beta c = 0) :
    ∃ tb, (b.train qk xs).bias = some tb ∧ tb c = b.inferBias c := by
  obtain ⟨tb, h1, h2⟩ := C28_bias_gap b qk xs c h hc hs hu
  exact ⟨tb, h1, by rw [h2, hb, add_zero]⟩

/-- the two biases agree only if `bn_beta = 0` -/
theorem C28_bias_agree_iff (b : BNLayer) (qk : ℕ → ℚ) (xs : List (List ℚ)) (c : ℕ)
    (h : b.StatsAgree qk xs c) (hc : b.center = true) (hs : b.scale = true) (hu : b.useBias = true) :
    (∃ tb, (b.train qk xs).bias = some tb ∧ tb c = b.inferBias c) ↔ b.beta c = 0 := by
  refine ⟨?_, C28_bias_partial b qk xs c h hc hs hu⟩
  rintro ⟨tb, h1, h2⟩
  obtain ⟨tb', h1', h2'⟩ := C28_bias_gap b qk xs c h hc hs hu
  rw [h1] at h1'
  cases h1'
  linarith

/-- Without `scale`, inference still multiplies the mean by `rsqrt(1 + eps)`: the exact difference. -/
theorem C28_no_scale_gap (b : BNLayer) (qk : ℕ → ℚ) (xs : List (List ℚ)) (c : ℕ)
    (h : b.postBuild.StatsAgree qk xs c) (hc : b.center = true) (hs : b.scale = false) (hu : b.useBias = true) :
    ∃ tb, (b.postBuild.train qk xs).bias = some tb ∧
      b.postBuild.inferBias c = tb c + b.beta c + b.postBuild.movingMean c * (1 - b.rsqrt (1 + b.eps)) := by
  have hp : b.postBuild = { b with gamma := fun _ => 1, movingVar := fun _ => 1 } := by
    unfold BNLayer.postBuild; simp [hc, hs, hu]
  rw [hp] at h ⊢
  have hm := h.mean hc
  have hne := h.nonempty
  unfold BNLayer.batchMean at hm
  rw [meanL_map_add hne] at hm
  refine ⟨_, BNLayer.train_bias _ qk xs hc, ?_⟩
  simp only [hs] at hm
  unfold BNLayer.inferBias BNLayer.fusedBias
  simp only [hc, hs, hu, Bool.not_true, Bool.false_eq_true, if_true, if_false] at hm ⊢
  rw [← hm]
  ring

/-- Moving statistics under training on batches with constant statistics (parameters fixed): the error of the moving
mean shrinks by the factor `momentum` per step. -/
theorem C28_moving_mean_converges (b : BNLayer) (qk : ℕ → ℚ) (xs : List (List ℚ)) (hc : b.center = true) (c : ℕ)
    (hne : b.chanVals (if b.scale then b.kernel else qk) xs c ≠ []) (n : ℕ) :
    ((fun l : BNLayer => (l.train qk xs).layer)^[n] b).movingMean c - b.batchMean qk xs c =
      b.momentum ^ n * (b.movingMean c - b.batchMean qk xs c) := by
  have key : ∀ n, let l := (fun l : BNLayer => (l.train qk xs).layer)^[n] b
      l.center = b.center ∧ l.scale = b.scale ∧ l.kernel = b.kernel ∧ l.bias = b.bias ∧ l.momentum = b.momentum ∧
        l.chanVals = b.chanVals ∧
        l.movingMean c - b.batchMean qk xs c = b.momentum ^ n * (b.movingMean c - b.batchMean qk xs c) := by
    intro n
    induction n with
    | zero => simp
    | succ n ih =>
      rw [Function.iterate_succ_apply']
      revert ih
      generalize (fun l : BNLayer => (l.train qk xs).layer)^[n] b = l
      rintro ⟨h1, h2, h3, h4, h5, h6, h7⟩
      have hcv : (l.train qk xs).layer.chanVals = l.chanVals := by
        unfold BNLayer.train; simp only; split_ifs <;> rfl
      refine ⟨?_, ?_, ?_, ?_, ?_, ?_, ?_⟩
      · rw [← h1]; unfold BNLayer.train; simp only; split_ifs <;> rfl
      · rw [← h2]; unfold BNLayer.train; simp only; split_ifs <;> rfl
      · rw [← h3]; unfold BNLayer.train; simp only; split_ifs <;> rfl
      · rw [← h4]; unfold BNLayer.train; simp only; split_ifs <;> rfl
      · rw [← h5]; unfold BNLayer.train; simp only; split_ifs <;> rfl
      · rw [← h6]; exact hcv
      · have hm : (l.train qk xs).layer.movingMean c = b.momentum * l.movingMean c +
            (1 - b.momentum) * (meanL (b.chanVals (if b.scale then b.kernel else qk) xs c) + b.bias c) := by
          rw [← h2, ← h3, ← h4, ← h5, ← h6]
          unfold BNLayer.train
          simp only [h1, hc, if_true]
          split_ifs <;> rfl
        have hbm : b.batchMean qk xs c = meanL (b.chanVals (if b.scale then b.kernel else qk) xs c) + b.bias c := by
          unfold BNLayer.batchMean
          rw [meanL_map_add hne]
        rw [hm, ← hbm, pow_succ]
        linear_combination b.momentum * h7
  exact (key n).2.2.2.2.2.2

/-- a 1-input 1-output dense layer, `rsqrt(5) := 1/2`, `eps = 1`; two samples 0 and 4 give mean 2, variance 4 -/
def exBN : BNLayer where
  center := true
  scale := true
  useBias := true
  outShape := [1]
  chLoc := .last
  taps := fun _ => [(0, 0)]
  kchan := fun _ => 0
  kernel := fun _ => 1
  bias := fun _ => 1
  gamma := fun _ => 1
  beta := fun _ => 0
  movingMean := fun _ => 3
  movingVar := fun _ => 4
  eps := 1
  momentum := 99 / 100
  rsqrt := fun v => if v = 5 then 1 / 2 else 1 / 3

def exBatch : List (List ℚ) := [[0], [4]]

-- hypotheses of `C28_bias_partial` hold for channel 0
example : exBN.StatsAgree (fun _ => 0) exBatch 0 := ⟨by decide +kernel, by decide +kernel, by decide +kernel⟩
example : exBN.chanVals exBN.kernel exBatch 0 = [0, 4] ∧ exBN.movingMean 0 = exBN.batchMean (fun _ => 0) exBatch 0 ∧
    exBN.movingVar 0 = varL (exBN.chanVals exBN.kernel exBatch 0) ∧
    exBN.fusedKernel 0 = 1 / 2 ∧ exBN.inferBias 0 = -1 / 2 := by decide +kernel

/-- Negation of C28 with `bn_beta = 1`: statistics agree, yet inference adds 1/2 and training -1/2. -/
theorem C28_beta_fails : let b := { exBN with beta := fun _ => 1 }
    b.movingMean 0 = b.batchMean (fun _ => 0) exBatch 0 ∧ b.movingVar 0 = varL (b.chanVals b.kernel exBatch 0) ∧
    b.inferBias 0 = 1 / 2 ∧ (b.train (fun _ => 0) exBatch).bias.map (· 0) = some (-1 / 2) := by decide +kernel

/-- Negation of C28 with `center=False` and a bias: training adds no bias at all, inference adds it. -/
theorem C28_no_center_fails : let b := { exBN with center := false }.postBuild
    b.inferBias 0 = 1 ∧ (b.train (fun _ => 0) exBatch).bias.map (· 0) = none := by decide +kernel

/-- Negation of C28 with `scale=False`: the mean 3 is multiplied by `rsqrt(1 + eps) = 1/3` at inference only. -/
theorem C28_no_scale_fails : let b := { exBN with scale := false }.postBuild
    b.movingMean 0 = b.batchMean (fun _ => 1) exBatch 0 ∧
    b.inferBias 0 = 0 ∧ (b.train (fun _ => 1) exBatch).bias.map (· 0) = some (-2) := by decide +kernel

/-! ### C64 -/

theorem lin_fused (b : BNLayer) (hs : b.scale = true) (x : List ℚ) (p c : ℕ)
    (hk : ∀ ij ∈ b.taps p, b.kchan ij.2 = c) :
    b.lin b.fusedKernel x p = b.lin b.kernel x p * (b.gamma c * b.rsqrt (b.movingVar c + b.eps)) := by
  unfold BNLayer.lin
  revert hk
  generalize b.taps p = t
  intro hk
  induction t with
  | nil => simp
  | cons a l ih =>
    simp only [List.map_cons, List.sum_cons]
    rw [ih (fun ij h => hk ij (by simp [h]))]
    unfold BNLayer.fusedKernel
    simp only [hs, Bool.not_true, Bool.false_eq_true, if_false, hk a (by simp)]
    ring

/-- C64: the fused layer at inference before quantization against batch normalisation of the plain layer `x·k + bias`:
the exact difference is `bias · (1 - gamma · rsqrt(var + eps))`. -/
theorem C64_gap (b : BNLayer) (hc : b.center = true) (hs : b.scale = true) (hu : b.useBias = true) (x : List ℚ) (p : ℕ)
    (hk : ∀ ij ∈ b.taps p, b.kchan ij.2 = b.chan p) :
    b.lin b.fusedKernel x p + b.inferBias (b.chan p) =
      Spec.batchNorm b.rsqrt (b.gamma (b.chan p)) (b.beta (b.chan p)) (b.movingMean (b.chan p)) (b.movingVar (b.chan p))
        b.eps (b.lin b.kernel x p + b.bias (b.chan p)) +
      b.bias (b.chan p) * (1 - b.gamma (b.chan p) * b.rsqrt (b.movingVar (b.chan p) + b.eps)) := by
  rw [lin_fused b hs x p _ hk]
  unfold BNLayer.inferBias BNLayer.fusedBias Spec.batchNorm
  simp only [hc, hu, Bool.not_true, Bool.false_eq_true, if_true, if_false]
  ring

/-- C64, the part that holds: for a zero bias (its initial value) the fused layer is the plain layer followed by batch
normalisation. Missing: non-zero bias, where it fails (`C64_bias_fails`). -/
theorem C64_zero_bias_partial (b : BNLayer) (hc : b.center = true) (hs : b.scale = true) (hu : b.useBias = true)
    (x : List ℚ) (p : ℕ) (hk : ∀ ij ∈ b.taps p, b.kchan ij.2 = b.chan p) (hb : b.bias (b.chan p) = 0) :
    b.lin b.fusedKernel x p + b.inferBias (b.chan p) =
      Spec.batchNorm b.rsqrt (b.gamma (b.chan p)) (b.beta (b.chan p)) (b.movingMean (b.chan p)) (b.movingVar (b.chan p))
        b.eps (b.lin b.kernel x p) := by
  rw [C64_gap b hc hs hu x p hk, hb]; ring_nf

example : let b := { exBN with bias := fun _ => 0, beta := fun _ => 1 }
    b.lin b.fusedKernel [4] 0 + b.inferBias 0 = 3 / 2 := by decide +kernel

/-- Negation of C64 for bias 1: batch normalisation of `4 + 1` gives 1, the fused layer 3/2. -/
theorem C64_bias_fails :
    exBN.lin exBN.fusedKernel [4] 0 + exBN.inferBias 0 = 3 / 2 ∧
    Spec.batchNorm exBN.rsqrt (exBN.gamma 0) (exBN.beta 0) (exBN.movingMean 0) (exBN.movingVar 0) exBN.eps
      (exBN.lin exBN.kernel [4] 0 + exBN.bias 0) = 1 := by decide +kernel

/-! ### C29 -/

/-- C29: `HBatchNormalization` without quantization equals batch normalisation exactly when the mean is 0 or
`ker = gamma·rsqrt(var+eps)` is ±1 (the code divides the mean by `ker` instead of multiplying). -/
theorem C29_iff (b : BNorm) (x : ℚ) (hk : b.gamma * b.rsqrt (b.movingVar + b.eps) ≠ 0) :
    b.infer id id x = Spec.batchNorm b.rsqrt b.gamma b.beta b.movingMean b.movingVar b.eps x ↔
      b.movingMean = 0 ∨ b.gamma * b.rsqrt (b.movingVar + b.eps) = 1 ∨
        b.gamma * b.rsqrt (b.movingVar + b.eps) = -1 := by
  unfold BNorm.infer BNorm.kerBias Spec.batchNorm
  simp only [id]
  set k := b.gamma * b.rsqrt (b.movingVar + b.eps) with hkd
  have e : b.gamma * (x - b.movingMean) * b.rsqrt (b.movingVar + b.eps) + b.beta = k * x - k * b.movingMean + b.beta := by
    rw [hkd]; ring
  rw [e]
  constructor
  · intro h
    have h1 : b.movingMean / k = k * b.movingMean := by linarith
    rw [div_eq_iff hk] at h1
    by_cases hm : b.movingMean = 0
    · exact .inl hm
    · right
      have : (k - 1) * (k + 1) = 0 := by
        have : b.movingMean * (k * k - 1) = 0 := by linarith
        rcases mul_eq_zero.mp this with h | h
        · exact absurd h hm
        · linarith
      rcases mul_eq_zero.mp this with h | h
      · exact .inl (by linarith)
      · exact .inr (by linarith)
  · rintro (h | h | h)
    · rw [h]; simp
    · rw [h]; ring
    · rw [h]; ring

/-- C29, the part that holds: for zero moving mean the layer, including its two quantizers, computes batch
normalisation with quantized scale and offset. Missing: non-zero mean (`C29_fails`). -/
theorem C29_zero_mean_partial (b : BNorm) (qk qb : ℚ → ℚ) (x : ℚ) (hm : b.movingMean = 0) :
    b.infer qk qb x = qb (qk (b.gamma * b.rsqrt (b.movingVar + b.eps)) * (x - b.movingMean) + qb b.beta) := by
  unfold BNorm.infer BNorm.kerBias
  simp [hm]

/-- Negation of C29: mean 2, `ker` 1/2: at `x = mean` batch normalisation gives `beta = 0`, the layer -3. -/
theorem C29_fails : let b : BNorm := ⟨1, 0, 2, 4, 1, 99 / 100, fun _ => 1 / 2⟩
    b.infer id id 2 = -3 ∧ Spec.batchNorm b.rsqrt b.gamma b.beta b.movingMean b.movingVar b.eps 2 = 0 := by
  decide +kernel

/-- the moving statistics of `HBatchNormalization` are exponential averages: after `n` steps on a fixed batch -/
theorem C29_moving_stats (b : BNorm) (xs : List ℚ) (n : ℕ) :
    let l := (fun l : BNorm => l.train xs)^[n] b
    l.movingMean - meanL xs = b.momentum ^ n * (b.movingMean - meanL xs) ∧
      l.movingVar - varL xs = b.momentum ^ n * (b.movingVar - varL xs) := by
  suffices ∀ n, let l := (fun l : BNorm => l.train xs)^[n] b
    l.momentum = b.momentum ∧ l.movingMean - meanL xs = b.momentum ^ n * (b.movingMean - meanL xs) ∧
      l.movingVar - varL xs = b.momentum ^ n * (b.movingVar - varL xs) from (this n).2
  intro n
  induction n with
  | zero => simp
  | succ n ih =>
    rw [Function.iterate_succ_apply']
    revert ih
    generalize (fun l : BNorm => l.train xs)^[n] b = l
    rintro ⟨h1, h2, h3⟩
    refine ⟨h1, ?_, ?_⟩
    · change l.movingMean - (l.movingMean - meanL xs) * (1 - l.momentum) - meanL xs = _
      rw [h1, pow_succ]; linear_combination b.momentum * h2
    · change l.movingVar - (l.movingVar - varL xs) * (1 - l.momentum) - varL xs = _
      rw [h1, pow_succ]; linear_combination b.momentum * h3

example : ((fun l : BNorm => l.train [0, 4])^[2] ⟨1, 0, 0, 0, 1, 1 / 2, fun _ => 1⟩).movingMean = 3 / 2 := by
  decide +kernel

end HGQ
