import Verif.Props.Merge

/-!
C38, C68: accumulating in the derived accumulator type.
-/

namespace HGQ

open Spec

/-- an order of summation: a binary tree with the terms at its leaves -/
inductive SumTree (α : Type) : Type
  | leaf (a : α)
  | add (l r : SumTree α)

namespace SumTree
variable {α : Type}

def leaves : SumTree α → List α
  | leaf a => [a]
  | add l r => l.leaves ++ r.leaves

/-- evaluation in which every term and every partial sum is stored in a variable of type `t` (ap_fixed defaults: truncate,
wrap) -/
def run (t : KIF) (v : α → ℚ) : SumTree α → ℚ
  | leaf a => t.cast .TRN .WRAP (v a)
  | add l r => t.cast .TRN .WRAP (l.run t v + r.run t v)

end SumTree

/-- a term of the sum computed for one output: an input times a weight, or the bias -/
inductive Term
  | prod (x w : ℚ)
  | bias (b : ℚ)
  deriving DecidableEq, Repr

def Term.val : Term → ℚ
  | .prod x w => x * w
  | .bias b => b

theorem run_congr (s : Bool) (i f : ℤ) (hw : 0 ≤ s.toInt + i + f) {α : Type} (v : α → ℚ) (t : SumTree α)
    (hg : ∀ a ∈ t.leaves, ∃ n : ℤ, v a = n * p2 (-f)) :
    (∃ n : ℤ, t.run ⟨s.toInt, i, f⟩ v = n * p2 (-f)) ∧
    ∃ m : ℤ, t.run ⟨s.toInt, i, f⟩ v = (t.leaves.map v).sum + m * p2 (s.toInt + i) := by
  have key : ∀ y : ℚ, (∃ n : ℤ, y = n * p2 (-f)) →
      (∃ n : ℤ, KIF.cast ⟨s.toInt, i, f⟩ .TRN .WRAP y = n * p2 (-f)) ∧
      ∃ m : ℤ, KIF.cast ⟨s.toInt, i, f⟩ .TRN .WRAP y = y + m * p2 (s.toInt + i) := by
    intro y hy
    rw [KIF.cast_eq_gq _ s rfl]
    obtain ⟨m, hm⟩ := gq_wrap s hw .TRN y
    rw [rv_of_grid _ _ hy] at hm
    refine ⟨(gq_kif s hw .TRN .WRAP y).1, -m, ?_⟩
    simp only
    push_cast; linarith
  induction t with
  | leaf a =>
    have := key (v a) (hg a (by simp [SumTree.leaves]))
    simpa [SumTree.run, SumTree.leaves] using this
  | add l r ihl ihr =>
    obtain ⟨gl, ml, hl⟩ := ihl fun a ha => hg a (by simp [SumTree.leaves, ha])
    obtain ⟨gr, mr, hr⟩ := ihr fun a ha => hg a (by simp [SumTree.leaves, ha])
    obtain ⟨g, m, hm⟩ := key _ (grid_add gl gr)
    refine ⟨g, m + ml + mr, ?_⟩
    show KIF.cast _ _ _ _ = _
    rw [hm, hl, hr]
    simp only [SumTree.leaves, List.map_append, List.sum_append]
    push_cast; ring

/-- **C38.** A layer with a kernel whose result type wraps: every product, the bias and every partial sum are stored in
`accum_t`, in any order of summation `t`. If the bias is a multiple of the accumulator's resolution, casting to `result_t`
gives exactly the cast of the exact sum. There is no bound on the number of terms and no overflow condition. -/
theorem C38_wrap_accumulation_exact (inp : KIF) (kernel bias : List ℚ) (units : ℕ) (r : KifRS)
    (hsat : r.sat = .WRAP) (hrnd : r.rnd = .TRN ∨ r.rnd = .RND) (hrk : r.kif.k = 0 ∨ r.kif.k = 1)
    (hwr : 0 ≤ r.kif.k + r.kif.i + r.kif.f) (hwa : 0 ≤ r.kif.k + r.kif.i + (linearKif inp kernel bias units).f)
    (hgrid : ∀ w ∈ kernel, ∃ n : ℤ, w = n * (2 : ℚ) ^ (-32 : ℤ))
    (t : SumTree Term) (hprod : ∀ x w, .prod x w ∈ t.leaves → inp.Holds x ∧ w ∈ kernel)
    (hbias : ∀ b, .bias b ∈ t.leaves → ∃ n : ℤ, b = n * (2 : ℚ) ^ (-(linearKif inp kernel bias units).f)) :
    let T := linTypes r (linearKif inp kernel bias units) (arrContainer kernel) none
    T.result.kif.cast T.result.rnd T.result.sat (t.run T.accum Term.val) =
      T.result.kif.cast T.result.rnd T.result.sat ((t.leaves.map Term.val).sum) := by
  intro T
  obtain ⟨s, hs⟩ := bool_of_k hrk
  have hT : T.result = r := rfl
  have hA : T.accum = ⟨s.toInt, r.kif.i, (linearKif inp kernel bias units).f⟩ := by
    rw [← hs]
    show (linTypes _ _ _ none).accum = _
    unfold linTypes
    simp only [hsat]
  rw [hT, hA]
  obtain ⟨-, m, hm⟩ := run_congr s r.kif.i (linearKif inp kernel bias units).f (by omega) Term.val t (by
    intro a ha
    cases a with
    | prod x w =>
      obtain ⟨h1, h2⟩ := hprod x w ha
      exact mul_grid h1.1 (C30_sound kernel hgrid w h2).1
    | bias b => exact hbias b ha)
  rw [hm, KIF.cast_eq_gq _ s hs, KIF.cast_eq_gq _ s hs, hsat]
  exact gq_wrap_period hrnd s (by omega) _ m

/-- **C38**, order independence spelled out: two orders of summation of the same terms give the same result. -/
theorem C38_order_irrelevant (inp : KIF) (kernel bias : List ℚ) (units : ℕ) (r : KifRS)
    (hsat : r.sat = .WRAP) (hrnd : r.rnd = .TRN ∨ r.rnd = .RND) (hrk : r.kif.k = 0 ∨ r.kif.k = 1)
    (hwr : 0 ≤ r.kif.k + r.kif.i + r.kif.f) (hwa : 0 ≤ r.kif.k + r.kif.i + (linearKif inp kernel bias units).f)
    (hgrid : ∀ w ∈ kernel, ∃ n : ℤ, w = n * (2 : ℚ) ^ (-32 : ℤ))
    (t t' : SumTree Term) (hperm : t.leaves.Perm t'.leaves)
    (hprod : ∀ x w, .prod x w ∈ t.leaves → inp.Holds x ∧ w ∈ kernel)
    (hbias : ∀ b, .bias b ∈ t.leaves → ∃ n : ℤ, b = n * (2 : ℚ) ^ (-(linearKif inp kernel bias units).f)) :
    let T := linTypes r (linearKif inp kernel bias units) (arrContainer kernel) none
    T.result.kif.cast T.result.rnd T.result.sat (t.run T.accum Term.val) =
      T.result.kif.cast T.result.rnd T.result.sat (t'.run T.accum Term.val) := by
  intro T
  have h1 := C38_wrap_accumulation_exact inp kernel bias units r hsat hrnd hrk hwr hwa hgrid t hprod hbias
  have h2 := C38_wrap_accumulation_exact inp kernel bias units r hsat hrnd hrk hwr hwa hgrid t'
    (fun x w h => hprod x w (hperm.mem_iff.mpr h)) (fun b h => hbias b (hperm.mem_iff.mpr h))
  simp only at h1 h2
  rw [h1, h2, (hperm.map Term.val).sum_eq]

/-- a sum is stored exactly if all its partial sums are values of the type -/
theorem run_exact (s : Bool) (i f : ℤ) (hw : 1 ≤ s.toInt + i + f) {α : Type} (v : α → ℚ) (t : SumTree α)
    (P : List α → Prop) (hsub : ∀ l l' : List α, P (l ++ l') → P l ∧ P l')
    (hP : ∀ l, P l → IsKif s.toInt i f ((l.map v).sum)) (h : P t.leaves) :
    t.run ⟨s.toInt, i, f⟩ v = (t.leaves.map v).sum := by
  have key : ∀ y : ℚ, IsKif s.toInt i f y → KIF.cast ⟨s.toInt, i, f⟩ .TRN .WRAP y = y := by
    intro y hy
    rw [KIF.cast_eq_gq _ s rfl]
    rw [gq_of_kif s (by simp only; omega) .TRN .WRAP (by decide) y, rv_of_grid _ _ hy.1]
    rw [rv_of_grid _ _ hy.1]; exact hy
  induction t with
  | leaf a =>
    have := hP _ h
    simp only [SumTree.leaves, List.map_cons, List.map_nil, List.sum_cons, List.sum_nil, add_zero] at this ⊢
    exact key _ this
  | add l r ihl ihr =>
    obtain ⟨h1, h2⟩ := hsub _ _ h
    show KIF.cast _ _ _ _ = _
    rw [ihl h1, ihr h2]
    have := hP _ h
    simp only [SumTree.leaves, List.map_append, List.sum_append] at this ⊢
    exact key _ this

/-- **C38**, result types that do not wrap: `accum_t` is then the type derived for the layer, and under the conditions of
C34 (no bias; unsigned inputs or kernel, or fewer terms than the next power of two) no partial sum overflows, so the
accumulated value is the exact sum, in any order. -/
theorem C38_saturating_accumulation_exact (inp : KIF) (kernel : List ℚ) (units : ℕ) (r : KifRS) (hsat : r.sat ≠ .WRAP)
    (hk : inp.k = 0 ∨ inp.k = 1) (hgrid : ∀ w ∈ kernel, ∃ n : ℤ, w = n * (2 : ℚ) ^ (-32 : ℤ))
    (hw : 1 ≤ (linearKif inp kernel [] units).k + (linearKif inp kernel [] units).i + (linearKif inp kernel [] units).f)
    (t : SumTree (ℚ × ℚ)) (hterms : ∀ p ∈ t.leaves, inp.Holds p.1 ∧ p.2 ∈ kernel)
    (hn : t.leaves.length ≤ kernel.length / units)
    (hs : inp.k = 0 ∨ (∀ w ∈ kernel, 0 ≤ w) ∨ t.leaves.length < 2 ^ Nat.clog 2 (kernel.length / units)) :
    t.run (linTypes r (linearKif inp kernel [] units) (arrContainer kernel) none).accum (fun p => p.1 * p.2) =
      (t.leaves.map fun p => p.1 * p.2).sum := by
  have hA : (linTypes r (linearKif inp kernel [] units) (arrContainer kernel) none).accum = linearKif inp kernel [] units := by
    unfold linTypes
    cases h : r.sat <;> simp_all
  rw [hA]
  have hbk : (linearKif inp kernel [] units).k = 0 ∨ (linearKif inp kernel [] units).k = 1 := by
    unfold linearKif; simp only; split_ifs <;> simp
  obtain ⟨s, hs'⟩ := bool_of_k hbk
  have e : linearKif inp kernel [] units = ⟨s.toInt, (linearKif inp kernel [] units).i, (linearKif inp kernel [] units).f⟩ := by
    rw [← hs']
  rw [e]
  refine run_exact s _ _ (by rw [← hs']; exact hw) _ t (fun l => (∀ p ∈ l, inp.Holds p.1 ∧ p.2 ∈ kernel) ∧
    l.length ≤ kernel.length / units ∧
    (inp.k = 0 ∨ (∀ w ∈ kernel, 0 ≤ w) ∨ l.length < 2 ^ Nat.clog 2 (kernel.length / units))) ?_ ?_ ⟨hterms, hn, hs⟩
  · rintro l l' ⟨h1, h2, h3⟩
    rw [List.length_append] at h2 h3
    refine ⟨⟨fun p hp => h1 p (by simp [hp]), by omega, ?_⟩, fun p hp => h1 p (by simp [hp]), by omega, ?_⟩
    · rcases h3 with h | h | h
      · exact .inl h
      · exact .inr (.inl h)
      · exact .inr (.inr (by omega))
    · rcases h3 with h | h | h
      · exact .inl h
      · exact .inr (.inl h)
      · exact .inr (.inr (by omega))
  · rintro l ⟨h1, h2, h3⟩
    have := C34_linear_partial inp kernel units l hk hgrid (fun p hp => (h1 p hp).1) (fun p hp => (h1 p hp).2) h2 h3
    unfold KIF.Holds at this
    rw [← hs']
    exact this

/-- **C68** (partial). The declared bias type is the accumulator type. A bias that is a multiple of its resolution and
within its range is stored exactly. Missing: biases finer than the resolution or larger than the range, where the
declared type does not hold the deployed bias (`C68_fine_bias_fails`, `C68_large_bias_fails`). -/
theorem C68_bias_type_holds_bias_partial (r : KifRS) (produced kernelT : KIF) (off : Option ℤ) (b : ℚ)
    (hk : (linTypes r produced kernelT off).bias.k = 0 ∨ (linTypes r produced kernelT off).bias.k = 1)
    (hw : 0 ≤ (linTypes r produced kernelT off).bias.k + (linTypes r produced kernelT off).bias.i +
      (linTypes r produced kernelT off).bias.f)
    (hb : (linTypes r produced kernelT off).bias.Holds b) :
    (linTypes r produced kernelT off).bias.cast .TRN .WRAP b = b := by
  obtain ⟨s, hs⟩ := bool_of_k hk
  unfold KIF.Holds at hb
  rw [hs] at hb
  rw [KIF.cast_eq_gq _ s hs, gq_of_kif s (by rw [← hs]; exact hw) .TRN .WRAP (by decide) b, rv_of_grid _ _ hb.1]
  rw [rv_of_grid _ _ hb.1]; exact hb

/-- **C38/C68** fail for a bias finer than the products: integer input and weight, bias `1/2`, result with one fractional
bit. The bias is truncated to `0`. -/
theorem C68_fine_bias_fails : ∃ (inp : KIF) (x w b : ℚ) (r : KifRS), inp.Holds x ∧ r.sat = .WRAP ∧ r.rnd = .TRN ∧
    let T := linTypes r (linearKif inp [w] [b] 1) (arrContainer [w]) none
    T.result.kif.Holds (x * w + b) ∧ T.result.kif.Holds b ∧ T.bias.cast .TRN .WRAP b = 0 ∧ b = 1 / 2 ∧
    T.result.kif.cast T.result.rnd T.result.sat
      ((SumTree.add (.leaf (.prod x w)) (.leaf (.bias b))).run T.accum Term.val) ≠ x * w + b := by
  refine ⟨⟨0, 1, 0⟩, 1, 1, 1/2, ⟨⟨0, 3, 1⟩, .TRN, .WRAP⟩, KIF.holds_of_holdsB (by decide +kernel), rfl, rfl,
    KIF.holds_of_holdsB (by decide +kernel), KIF.holds_of_holdsB (by decide +kernel), by decide +kernel, rfl, by decide +kernel⟩

/-- **C68** fails for a bias larger than the products when the result saturates: bias `5` is stored as `1`. -/
theorem C68_large_bias_fails : ∃ (inp : KIF) (x w b : ℚ) (r : KifRS), inp.Holds x ∧ r.sat = .SAT ∧ r.rnd = .TRN ∧
    let T := linTypes r (linearKif inp [w] [b] 1) (arrContainer [w]) none
    T.result.kif.Holds (x * w + b) ∧ b = 5 ∧ T.bias.cast .TRN .WRAP b = 1 := by
  refine ⟨⟨0, 1, 0⟩, 1, 1, 5, ⟨⟨0, 3, 0⟩, .TRN, .SAT⟩, KIF.holds_of_holdsB (by decide +kernel), rfl, rfl,
    KIF.holds_of_holdsB (by decide +kernel), rfl, by decide +kernel⟩

/-! Non-vacuity: three products and a bias, far beyond the range of the result type. -/

def exTree : SumTree Term :=
  .add (.add (.leaf (.prod (13 / 4) (3 / 2))) (.leaf (.bias (25 / 8)))) (.add (.leaf (.prod (-4) (-5))) (.leaf (.prod 3 7)))

example : let T := linTypes ⟨⟨1, 2, 1⟩, .RND, .WRAP⟩ (linearKif ⟨1, 2, 2⟩ [3 / 2, -5, 7] [25 / 8] 1) (arrContainer [3 / 2, -5, 7]) none
    T.result.kif.cast T.result.rnd T.result.sat (exTree.run T.accum Term.val) =
      T.result.kif.cast T.result.rnd T.result.sat ((exTree.leaves.map Term.val).sum) := by
  refine C38_wrap_accumulation_exact ⟨1, 2, 2⟩ [3 / 2, -5, 7] [25 / 8] 1 ⟨⟨1, 2, 1⟩, .RND, .WRAP⟩ rfl (.inr rfl) (.inr rfl)
    (by decide +kernel) (by decide +kernel) ?_ exTree ?_ ?_
  · intro w hw
    simp only [List.mem_cons, List.not_mem_nil, or_false] at hw
    rcases hw with rfl | rfl | rfl
    · exact ⟨6442450944, by norm_num⟩
    · exact ⟨-21474836480, by norm_num⟩
    · exact ⟨30064771072, by norm_num⟩
  · intro x w h
    simp only [exTree, SumTree.leaves, List.cons_append, List.nil_append, List.mem_cons, List.not_mem_nil, or_false,
      Term.prod.injEq, reduceCtorEq, false_or] at h
    rcases h with ⟨rfl, rfl⟩ | ⟨rfl, rfl⟩ | ⟨rfl, rfl⟩
    · exact ⟨KIF.holds_of_holdsB (by decide +kernel), by simp⟩
    · exact ⟨KIF.holds_of_holdsB (by decide +kernel), by simp⟩
    · exact ⟨KIF.holds_of_holdsB (by decide +kernel), by simp⟩
  · intro b h
    simp only [exTree, SumTree.leaves, List.cons_append, List.nil_append, List.mem_cons, List.not_mem_nil, or_false,
      Term.bias.injEq, reduceCtorEq, false_or] at h
    subst h
    refine ⟨25, ?_⟩
    rw [show (linearKif ⟨1, 2, 2⟩ [3 / 2, -5, 7] [25 / 8] 1).f = 3 by decide +kernel]; norm_num

-- the exact sum 49 is outside the result type [-4, 4)
example : (exTree.leaves.map Term.val).sum = 49 := by decide +kernel

end HGQ
