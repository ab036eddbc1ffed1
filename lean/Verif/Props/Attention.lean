import Verif.Lemmas.Attention
import Mathlib.Algebra.BigOperators.Field

/-!
C84: the attention layer computes multi-head attention.
-/

namespace HGQ.Attn
open Finset

/-- the projected queries of the layer as a matrix -/
noncomputable def Layer.Q (L : Layer) (q : ℕ → ℝ) : ℕ → ℕ → ℝ :=
  Spec.proj L.qDim (fun e c => L.wq (e * (L.keyDim * L.numHeads) + c)) L.bq fun i e => q (i * L.qDim + e)

/-- the projected keys -/
noncomputable def Layer.K (L : Layer) (k : ℕ → ℝ) : ℕ → ℕ → ℝ :=
  Spec.proj L.kDim (fun e c => L.wk (e * (L.keyDim * L.numHeads) + c)) L.bk fun i e => k (i * L.kDim + e)

/-- the projected values -/
noncomputable def Layer.V (L : Layer) (v : ℕ → ℝ) : ℕ → ℕ → ℝ :=
  Spec.proj L.vDim (fun e c => L.wv (e * (L.valueDim * L.numHeads) + c)) L.bv fun i e => v (i * L.vDim + e)

/-- what a mask adds to the score of query `i` and key `j` -/
noncomputable def maskAt (m : ℕ) : Mask → ℕ → ℕ → ℝ
  | .none, _, _ => 0
  | .bool b, i, j => if b (i * m + j) then 0 else -10 ^ 9
  | .float f, i, j => f (i * m + j)

theorem mask_add_eq (m : ℕ) (mask : Mask) (i j : ℕ) : mask.add (i * m + j) = maskAt m mask i j := by
  cases mask with
  | none => rfl
  | float f => rfl
  | bool b =>
    show (if b (i * m + j) then (0 : ℝ) else 1) * -1000000000 = if b (i * m + j) then 0 else -10 ^ 9
    split_ifs <;> norm_num

/-- **C84**, `return_attention_scores`: the scores returned are the softmax of the scaled dot products plus the mask, for every number
of heads, queries and keys. -/
theorem C84_scores (L : Layer) (n m : ℕ) (mask : Mask) (q k : ℕ → ℝ) (h i j : ℕ) (hh : h < L.numHeads) (hi : i < n) (hj : j < m) :
    L.scores n m mask q k ((h * n + i) * m + j) =
      Spec.attnWeight m L.keyDim (Spec.block L.keyDim h (L.Q q)) (Spec.block L.keyDim h (L.K k)) (maskAt m mask) i j := by
  unfold Layer.scores Spec.attnWeight
  dsimp only
  rw [softmaxRows_eq _ hj]
  have key : ∀ j' < m, matmulT n m L.keyDim
        (transpose n L.numHeads L.keyDim (dense L.qDim (L.keyDim * L.numHeads) L.wq L.bq q))
        (transpose m L.numHeads L.keyDim (dense L.kDim (L.keyDim * L.numHeads) L.wk L.bk k)) ((h * n + i) * m + j') /
      √L.keyDim + mask.add (((h * n + i) * m + j') % (n * m)) =
      (∑ d ∈ range L.keyDim, Spec.block L.keyDim h (L.Q q) i d * Spec.block L.keyDim h (L.K k) j' d) / √L.keyDim +
        maskAt m mask i j' := by
    intro j' hj'
    rw [matmulT_eq _ _ hi hj', mask_index hi hj', mask_add_eq]
    congr 2
    refine sum_congr rfl fun d hd => ?_
    rw [mem_range] at hd
    rw [slice_eq _ _ _ hh hi hd, slice_eq _ _ _ hh hj' hd]
    rfl
  unfold Spec.softmax
  beta_reduce
  rw [key j hj]
  congr 1
  exact sum_congr rfl fun j' hj' => by rw [key j' (mem_range.mp hj')]

/-- **C84**: output row `i`, column `c` is multi-head attention of the projected inputs followed by the output projection. -/
theorem C84_standard (L : Layer) (n m : ℕ) (mask : Mask) (q k v : ℕ → ℝ) (i c : ℕ) (hi : i < n) (hc : c < L.vDim) :
    L.call n m mask q k v (i * L.vDim + c) =
      Spec.multiHead L.numHeads m L.keyDim L.valueDim (L.Q q) (L.K k) (L.V v) (maskAt m mask)
        (fun t c => L.wo (t * L.vDim + c)) L.bo i c := by
  unfold Layer.call Spec.multiHead
  dsimp only
  rw [dense_eq _ _ _ hc]
  unfold Spec.proj
  congr 1
  rw [mul_comm L.valueDim L.numHeads, sum_range_mul]
  refine sum_congr rfl fun h hh => sum_congr rfl fun e he => ?_
  rw [mem_range] at hh he
  congr 1
  beta_reduce
  have : i * (L.numHeads * L.valueDim) + (h * L.valueDim + e) = (i * L.numHeads + h) * L.valueDim + e := by ring
  rw [this, transpose_eq _ hh he, matmul_eq _ _ hi he]
  unfold Spec.attention
  refine sum_congr rfl fun j hj => ?_
  rw [mem_range] at hj
  rw [C84_scores L n m mask q k h i j hh hi hj, mul_comm L.numHeads L.valueDim, slice_eq _ _ _ hh hj he]
  rfl

theorem sum_exp_pos {m : ℕ} (hm : 0 < m) (s : ℕ → ℝ) : 0 < ∑ i ∈ range m, Real.exp (s i) :=
  sum_pos (fun _ _ => Real.exp_pos _) ⟨0, mem_range.mpr hm⟩

/-- **C84**: for every query and head the returned scores are non-negative and add up to 1 (so the attention output is an average of
the projected values). -/
theorem C84_average (L : Layer) (n m : ℕ) (mask : Mask) (q k : ℕ → ℝ) (h i : ℕ) (hh : h < L.numHeads) (hi : i < n) (hm : 0 < m) :
    (∀ j < m, 0 ≤ L.scores n m mask q k ((h * n + i) * m + j)) ∧
      ∑ j ∈ range m, L.scores n m mask q k ((h * n + i) * m + j) = 1 := by
  constructor
  · intro j hj
    rw [C84_scores L n m mask q k h i j hh hi hj]
    exact div_nonneg (Real.exp_pos _).le (sum_exp_pos hm _).le
  · rw [sum_congr rfl fun j hj => C84_scores L n m mask q k h i j hh hi (mem_range.mp hj)]
    unfold Spec.attnWeight Spec.softmax
    beta_reduce
    rw [← Finset.sum_div]
    exact div_self (sum_exp_pos hm _).ne'

/-- the rows of a flat tensor with `d` columns in another order -/
def permRows (d : ℕ) (σ : ℕ → ℕ) (x : ℕ → ℝ) (p : ℕ) : ℝ := x (σ (p / d) * d + p % d)

theorem proj_perm {d : ℕ} (σ : ℕ → ℕ) (W : ℕ → ℕ → ℝ) (b x : ℕ → ℝ) (j c : ℕ) :
    Spec.proj d W b (fun i e => permRows d σ x (i * d + e)) j c = Spec.proj d W b (fun i e => x (i * d + e)) (σ j) c := by
  unfold Spec.proj permRows
  congr 1
  refine sum_congr rfl fun e he => ?_
  obtain ⟨h1, h2⟩ := divmod_lt (a := j) (mem_range.mp he)
  beta_reduce
  rw [h1, h2]

/-- **C84**: the order of the keys does not matter: permuting keys and values (and the mask's columns) together leaves every output
as it is. -/
theorem C84_permutation (L : Layer) (n m : ℕ) (mask : ℕ → ℝ) (q k v : ℕ → ℝ) (σ : Equiv.Perm ℕ) (hσ : ∀ j, σ j < m ↔ j < m)
    (i c : ℕ) (hi : i < n) (hc : c < L.vDim) :
    L.call n m (.float fun p => mask (p / m * m + σ (p % m))) q (permRows L.kDim σ k) (permRows L.vDim σ v) (i * L.vDim + c) =
      L.call n m (.float mask) q k v (i * L.vDim + c) := by
  rw [C84_standard _ _ _ _ _ _ _ _ _ hi hc, C84_standard _ _ _ _ _ _ _ _ _ hi hc]
  have hK : L.K (permRows L.kDim σ k) = fun j c => L.K k (σ j) c := by
    funext j c; exact proj_perm σ _ _ _ _ _
  have hV : L.V (permRows L.vDim σ v) = fun j c => L.V v (σ j) c := by
    funext j c; exact proj_perm σ _ _ _ _ _
  have hM : ∀ j < m, maskAt m (.float fun p => mask (p / m * m + σ (p % m))) i j = maskAt m (.float mask) i (σ j) := by
    intro j hj
    obtain ⟨h1, h2⟩ := divmod_lt (a := i) hj
    unfold maskAt
    dsimp only
    rw [h1, h2]
  rw [hK, hV]
  unfold Spec.multiHead
  congr 1
  refine sum_congr rfl fun h hh => sum_congr rfl fun e he => ?_
  congr 1
  have hsum : ∀ f : ℕ → ℝ, ∑ j ∈ range m, f (σ j) = ∑ j ∈ range m, f j := fun f =>
    sum_equiv σ (by intro j; rw [mem_range, mem_range, hσ]) fun _ _ => rfl
  unfold Spec.attention
  conv_rhs => rw [← hsum]
  refine sum_congr rfl fun j hj => ?_
  rw [mem_range] at hj
  unfold Spec.attnWeight Spec.softmax
  beta_reduce
  rw [hM j hj]
  have : ∑ x ∈ range m, Real.exp ((∑ d ∈ range L.keyDim, Spec.block L.keyDim h (L.Q q) i d *
        Spec.block L.keyDim h (fun j c => L.K k (σ j) c) x d) / √L.keyDim +
        maskAt m (.float fun p => mask (p / m * m + σ (p % m))) i x) =
      ∑ x ∈ range m, Real.exp ((∑ d ∈ range L.keyDim, Spec.block L.keyDim h (L.Q q) i d *
        Spec.block L.keyDim h (L.K k) x d) / √L.keyDim + maskAt m (.float mask) i x) := by
    conv_rhs => rw [← hsum]
    refine sum_congr rfl fun x hx => ?_
    rw [hM x (mem_range.mp hx)]
    rfl
  rw [this]
  rfl

/-- unmasked score of query `i` and key `j` -/
noncomputable def Layer.raw (L : Layer) (q k : ℕ → ℝ) (h i j : ℕ) : ℝ :=
  (∑ d ∈ range L.keyDim, Spec.block L.keyDim h (L.Q q) i d * Spec.block L.keyDim h (L.K k) j d) / √L.keyDim

/-- **C84**, boolean mask: a masked key gets at most `exp (-10^9)` times the exponential of its score's lead over any key that is
not masked; so it is negligible as soon as one key is not masked. -/
theorem C84_mask (L : Layer) (n m : ℕ) (b : ℕ → Bool) (q k : ℕ → ℝ) (h i j j' : ℕ) (hh : h < L.numHeads) (hi : i < n) (hj : j < m)
    (hj' : j' < m) (hb : b (i * m + j) = false) (hb' : b (i * m + j') = true) :
    L.scores n m (.bool b) q k ((h * n + i) * m + j) ≤ Real.exp (L.raw q k h i j - L.raw q k h i j' - 10 ^ 9) := by
  rw [C84_scores L n m _ q k h i j hh hi hj]
  unfold Spec.attnWeight Spec.softmax
  beta_reduce
  have hm : 0 < m := by omega
  rw [div_le_iff₀ (sum_exp_pos hm _)]
  have h1 : Real.exp ((∑ d ∈ range L.keyDim, Spec.block L.keyDim h (L.Q q) i d * Spec.block L.keyDim h (L.K k) j' d) /
      √L.keyDim + maskAt m (.bool b) i j') ≤ ∑ x ∈ range m, Real.exp ((∑ d ∈ range L.keyDim,
        Spec.block L.keyDim h (L.Q q) i d * Spec.block L.keyDim h (L.K k) x d) / √L.keyDim + maskAt m (.bool b) i x) :=
    single_le_sum (f := fun x => Real.exp ((∑ d ∈ range L.keyDim, Spec.block L.keyDim h (L.Q q) i d *
      Spec.block L.keyDim h (L.K k) x d) / √L.keyDim + maskAt m (.bool b) i x)) (fun _ _ => (Real.exp_pos _).le) (mem_range.mpr hj')
  have e1 : maskAt m (.bool b) i j' = 0 := by simp [maskAt, hb']
  have e2 : maskAt m (.bool b) i j = -10 ^ 9 := by simp [maskAt, hb]
  refine le_trans (le_of_eq ?_) (mul_le_mul_of_nonneg_left h1 (Real.exp_pos _).le)
  rw [e1, e2, ← Real.exp_add]
  congr 1
  unfold Layer.raw
  ring

/-- **C84**, a query whose keys are all masked attends as if none were masked (over the reals; it is not "no attention"). -/
theorem C84_all_masked (L : Layer) (n m : ℕ) (b : ℕ → Bool) (q k : ℕ → ℝ) (h i : ℕ) (hh : h < L.numHeads) (hi : i < n)
    (hb : ∀ j < m, b (i * m + j) = false) (j : ℕ) (hj : j < m) :
    L.scores n m (.bool b) q k ((h * n + i) * m + j) = L.scores n m .none q k ((h * n + i) * m + j) := by
  rw [C84_scores L n m _ q k h i j hh hi hj, C84_scores L n m _ q k h i j hh hi hj]
  unfold Spec.attnWeight Spec.softmax
  beta_reduce
  have e : ∀ j < m, maskAt m (.bool b) i j = -10 ^ 9 := fun j hj => by simp [maskAt, hb j hj]
  have e0 : ∀ j, maskAt m .none i j = 0 := fun _ => rfl
  simp only [e0, add_zero]
  have hs : ∀ f : ℕ → ℝ, ∑ x ∈ range m, Real.exp (f x + maskAt m (.bool b) i x) = (∑ x ∈ range m, Real.exp (f x)) * Real.exp (-10 ^ 9) := by
    intro f
    rw [sum_mul]
    exact sum_congr rfl fun x hx => by rw [e x (mem_range.mp hx), Real.exp_add]
  rw [e j hj, hs, Real.exp_add, mul_div_mul_right _ _ (Real.exp_pos _).ne']

/-- a layer with 2 heads of size 1 on inputs of size 1 -/
def exAttn : Layer := ⟨2, 1, 1, 1, 1, 1, fun i => [1, 2].getD i 0, fun _ => 0, fun _ => 1, fun _ => 0, fun i => [1, 3].getD i 0, fun _ => 0,
  fun _ => 1, fun _ => 0⟩

-- 2 queries, 3 keys: hypotheses are met, and equal keys give equal weights
example : (∀ j < 3, 0 ≤ exAttn.scores 2 3 .none (fun _ => 1) (fun _ => 5) ((1 * 2 + 1) * 3 + j)) ∧
    ∑ j ∈ range 3, exAttn.scores 2 3 .none (fun _ => 1) (fun _ => 5) ((1 * 2 + 1) * 3 + j) = 1 :=
  C84_average exAttn 2 3 .none _ _ 1 1 (by decide) (by decide) (by decide)
example : exAttn.scores 2 3 (.bool fun p => p != 4) (fun _ => 1) (fun _ => 5) ((1 * 2 + 1) * 3 + 1) ≤ Real.exp (-10 ^ 9) := by
  have := C84_mask exAttn 2 3 (fun p => p != 4) (fun _ => 1) (fun _ => 5) 1 1 1 0 (by decide) (by decide) (by decide) (by decide) rfl rfl
  refine le_trans this (Real.exp_le_exp.mpr ?_)
  have : exAttn.raw (fun _ => 1) (fun _ => 5) 1 1 1 = exAttn.raw (fun _ => 1) (fun _ => 5) 1 1 0 := rfl
  rw [this]; linarith

/-- **C84**, sizes: the size of a head's values is `value_dim` if a positive one is given and `key_dim` otherwise (also for 0), so
with a positive `key_dim` it is never 0. -/
theorem C84_value_dim (keyDim : ℕ) (v : Option ℕ) :
    (∀ n, 0 < n → v = some n → effValueDim keyDim v = n) ∧ (v = none ∨ v = some 0 → effValueDim keyDim v = keyDim) ∧
    (0 < keyDim → 0 < effValueDim keyDim v) := by
  refine ⟨?_, ?_, fun h => ?_⟩
  · rintro n hn rfl
    cases n with
    | zero => exact absurd hn (lt_irrefl _)
    | succ n => rfl
  · rintro (rfl | rfl) <;> rfl
  · match v with
    | none => exact h
    | some 0 => exact h
    | some (n + 1) => exact Nat.succ_pos n

example : effValueDim 4 (some 3) = 3 ∧ effValueDim 4 none = 4 := ⟨rfl, rfl⟩

/-- Negation of **C84**, declared output shape: 2 heads of size 4 on values of size 16; the layer announces 8 channels and returns 16. -/
theorem C84_declared_shape : ∃ L : Layer, L.numHeads = 2 ∧ L.keyDim = 4 ∧ L.valueDim = effValueDim 4 none ∧ L.vDim = 16 ∧
    L.declaredDim = 8 ∧ L.actualDim = 16 :=
  ⟨⟨2, 4, 4, 16, 16, 16, fun _ => 0, fun _ => 0, fun _ => 0, fun _ => 0, fun _ => 0, fun _ => 0, fun _ => 0, fun _ => 0⟩,
    rfl, rfl, rfl, rfl, rfl, rfl⟩

/-- Negation of **C84** for models with a symbolic batch dimension (every functional Keras model): with an unknown batch size or
number of positions the layer cannot be called. -/
theorem C84_needs_static_shapes (q k v : Static) : callShapes q k v = .ok () ↔
    (q.batch.isSome ∧ q.n.isSome) ∧ (k.batch.isSome ∧ k.n.isSome) ∧ v.batch.isSome ∧ v.n.isSome := by
  obtain ⟨qb, qn⟩ := q
  obtain ⟨kb, kn⟩ := k
  obtain ⟨vb, vn⟩ := v
  cases qb <;> cases qn <;> cases kb <;> cases kn <;> cases vb <;> cases vn <;>
    simp [callShapes, reshapeOk, bind, Except.bind]

example : callShapes ⟨none, some 8⟩ ⟨none, some 8⟩ ⟨none, some 8⟩ ≠ .ok () := by decide
example : callShapes ⟨some 32, some 8⟩ ⟨some 32, some 8⟩ ⟨some 32, some 8⟩ = .ok () := by decide

end HGQ.Attn
