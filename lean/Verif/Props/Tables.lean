import Verif.Props.Merge
import Verif.Props.Refuse
import Mathlib.Data.Set.Card
import Mathlib.Order.Interval.Finset.Defs
import Mathlib.Data.Int.Interval

/-!
C72: number of entries of the tables derived for activations. C37: which type an input layer gets.
-/

namespace HGQ

open Spec

theorem ncard_grid (f a b : ℤ) :
    {x : ℚ | ∃ n : ℤ, a ≤ n ∧ n < b ∧ x = n * p2 (-f)}.ncard = (b - a).toNat := by
  have hinj : Function.Injective fun n : ℤ => (n : ℚ) * p2 (-f) := by
    intro m n h
    have := mul_right_cancel₀ (p2_pos (-f)).ne' h
    exact_mod_cast this
  have : {x : ℚ | ∃ n : ℤ, a ≤ n ∧ n < b ∧ x = n * p2 (-f)} = (fun n : ℤ => (n : ℚ) * p2 (-f)) '' (Finset.Ico a b : Set ℤ) := by
    ext x
    simp only [Set.mem_ofPred_eq, Set.mem_image, Finset.coe_Ico, Set.mem_Ico]
    constructor
    · rintro ⟨n, h1, h2, rfl⟩; exact ⟨n, ⟨h1, h2⟩, rfl⟩
    · rintro ⟨n, ⟨h1, h2⟩, rfl⟩; exact ⟨n, h1, h2, rfl⟩
  rw [this, Set.ncard_image_of_injective _ hinj, Set.ncard_coe_finset, Int.card_Ico]

/-- the table size in a configuration -/
def tableSize (c : Conf) : Option ℤ := match c.lookup "table_size" with
  | some (.inr n) => some n
  | _ => none

theorem grid_range (f : ℤ) (a b : ℤ) (c : ℕ) (hc : p2 f * c = a) (d : ℤ) (hd : p2 f * (d : ℚ) = b) (x : ℚ) :
    (∃ n : ℤ, x = n * (2 : ℚ) ^ (-f)) ∧ -(c : ℚ) ≤ x ∧ x < d ↔ ∃ n : ℤ, -a ≤ n ∧ n < b ∧ x = n * p2 (-f) := by
  have hp := p2_pos f
  have e : p2 (-f) * p2 f = 1 := by rw [← p2_add]; simp [p2]
  have conv : ∀ n : ℤ, (n : ℚ) * p2 (-f) * p2 f = n := fun n => by rw [mul_assoc, e, mul_one]
  constructor
  · rintro ⟨⟨n, hn⟩, h1, h2⟩
    change x = n * p2 (-f) at hn
    refine ⟨n, ?_, ?_, hn⟩
    · have := mul_le_mul_of_nonneg_right h1 hp.le
      rw [hn, conv] at this
      have h3 : (-(a : ℚ)) ≤ n := by rw [← hc]; linarith
      exact_mod_cast h3
    · have := mul_lt_mul_of_pos_right h2 hp
      rw [hn, conv] at this
      have h3 : (n : ℚ) < b := by rw [← hd]; linarith
      exact_mod_cast h3
  · rintro ⟨n, h1, h2, hn⟩
    refine ⟨⟨n, hn⟩, ?_, ?_⟩
    · apply le_of_mul_le_mul_right _ hp
      rw [hn, conv]
      have h3 : (-(a : ℚ)) ≤ n := by exact_mod_cast h1
      rw [← hc] at h3; linarith
    · apply lt_of_mul_lt_mul_right _ hp.le
      rw [hn, conv]
      have h3 : (n : ℚ) < b := by exact_mod_cast h2
      rw [← hd] at h3; linarith

theorem p2_int {n : ℤ} (h : 0 ≤ n) : ∃ m : ℤ, p2 n = m ∧ 0 < m := by
  obtain ⟨k, rfl⟩ := Int.eq_ofNat_of_zero_le h
  refine ⟨2 ^ k, ?_, by positivity⟩
  rw [p2_natCast]

/-- **C72**, `tanh`: the table has one entry for every value of the input precision in [-4, 4). -/
theorem C72_tanh_table (r : KifRS) (inp : KIF) (hf : -2 ≤ inp.f) :
    tableSize (tableConf .tanh r inp) =
      some {x : ℚ | (∃ n : ℤ, x = n * (2 : ℚ) ^ (-inp.f)) ∧ -4 ≤ x ∧ x < 4}.ncard := by
  obtain ⟨m, hm, hm0⟩ := p2_int (n := inp.f + 2) (by omega)
  have hm' : p2 inp.f * 4 = m := by rw [← hm, p2_add]; congr 1
  have : {x : ℚ | (∃ n : ℤ, x = n * (2 : ℚ) ^ (-inp.f)) ∧ -4 ≤ x ∧ x < 4} =
      {x : ℚ | ∃ n : ℤ, -m ≤ n ∧ n < m ∧ x = n * p2 (-inp.f)} := by
    ext x
    exact_mod_cast grid_range inp.f m m 4 (by exact_mod_cast hm') 4 (by exact_mod_cast hm') x
  rw [this, ncard_grid]
  have h8 : (8 : ℚ) / p2 (-inp.f) = (2 * m : ℤ) := by
    rw [div_p2, neg_neg]; push_cast; rw [← hm']; ring
  have : ⌊(8 : ℚ) / p2 (-inp.f)⌋ = 2 * m := by rw [h8, Int.floor_intCast]
  simp only [tableConf, this]
  show some (2 * m) = _
  congr 1
  omega

/-- **C72**, `sigmoid`: the table has one entry for every value of the input precision in [-8, 8). -/
theorem C72_sigmoid_table (r : KifRS) (inp : KIF) (hf : -3 ≤ inp.f) :
    tableSize (tableConf .sigmoid r inp) =
      some {x : ℚ | (∃ n : ℤ, x = n * (2 : ℚ) ^ (-inp.f)) ∧ -8 ≤ x ∧ x < 8}.ncard := by
  obtain ⟨m, hm, hm0⟩ := p2_int (n := inp.f + 3) (by omega)
  have hm' : p2 inp.f * 8 = m := by rw [← hm, p2_add]; congr 1
  have : {x : ℚ | (∃ n : ℤ, x = n * (2 : ℚ) ^ (-inp.f)) ∧ -8 ≤ x ∧ x < 8} =
      {x : ℚ | ∃ n : ℤ, -m ≤ n ∧ n < m ∧ x = n * p2 (-inp.f)} := by
    ext x
    exact_mod_cast grid_range inp.f m m 8 (by exact_mod_cast hm') 8 (by exact_mod_cast hm') x
  rw [this, ncard_grid]
  have h8 : (16 : ℚ) / p2 (-inp.f) = (2 * m : ℤ) := by
    rw [div_p2, neg_neg]; push_cast; rw [← hm']; ring
  have : ⌊(16 : ℚ) / p2 (-inp.f)⌋ = 2 * m := by rw [h8, Int.floor_intCast]
  simp only [tableConf, this]
  show some (2 * m) = _
  congr 1
  omega

/-- **C72**, any other activation: the table has one entry for every value of the input type. -/
theorem C72_table_full (r : KifRS) (inp : KIF) (s : Bool) (hk : inp.k = s.toInt) (hw : 0 ≤ inp.i + inp.f) :
    tableSize (tableConf .other r inp) = some {x : ℚ | IsKif inp.k inp.i inp.f x}.ncard := by
  obtain ⟨m, hm, hm0⟩ := p2_int hw
  have key : {x : ℚ | IsKif inp.k inp.i inp.f x} =
      {x : ℚ | ∃ n : ℤ, -(s.toInt * m) ≤ n ∧ n < m ∧ x = n * p2 (-inp.f)} := by
    ext x
    have hp := p2_pos inp.f
    have e : p2 (-inp.f) * p2 inp.f = 1 := by rw [← p2_add]; simp [p2]
    have conv : ∀ n : ℤ, (n : ℚ) * p2 (-inp.f) * p2 inp.f = n := fun n => by rw [mul_assoc, e, mul_one]
    have hmm : p2 inp.i * p2 inp.f = m := by rw [← p2_add, hm]
    unfold IsKif
    simp only [Set.mem_ofPred_eq]
    rw [hk]
    change (∃ n : ℤ, x = n * p2 (-inp.f)) ∧ -((s.toInt : ℚ) * p2 inp.i) ≤ x ∧ x < p2 inp.i ↔ _
    constructor
    · rintro ⟨⟨n, hn⟩, h1, h2⟩
      refine ⟨n, ?_, ?_, hn⟩
      · have := mul_le_mul_of_nonneg_right h1 hp.le
        rw [hn, conv, neg_mul, mul_assoc, hmm] at this
        exact_mod_cast this
      · have := mul_lt_mul_of_pos_right h2 hp
        rw [hn, conv, hmm] at this
        exact_mod_cast this
    · rintro ⟨n, h1, h2, hn⟩
      refine ⟨⟨n, hn⟩, ?_, ?_⟩
      · apply le_of_mul_le_mul_right _ hp
        rw [hn, conv, neg_mul, mul_assoc, hmm]
        exact_mod_cast h1
      · apply lt_of_mul_lt_mul_right _ hp.le
        rw [hn, conv, hmm]
        exact_mod_cast h2
  rw [key, ncard_grid]
  have h2 : p2 (inp.k + inp.i + inp.f) = ((s.toInt + 1) * m : ℤ) := by
    rw [hk, add_assoc, p2_add, hm]
    push_cast
    congr 1
    cases s
    · simp [p2, Bool.toInt]
    · simp [p2, Bool.toInt]; norm_num
  have : ⌊p2 (inp.k + inp.i + inp.f)⌋ = (s.toInt + 1) * m := by rw [h2, Int.floor_intCast]
  simp only [tableConf, this]
  show some ((s.toInt + 1) * m) = _
  congr 1
  rw [add_mul, one_mul]
  have : 0 ≤ s.toInt * m := by cases s <;> simp [Bool.toInt]; omega
  omega

example : tableSize (tableConf .tanh ⟨⟨1, 0, 7⟩, .RND, .SAT⟩ ⟨1, 2, 5⟩) = some 256 := by decide +kernel
example : tableSize (tableConf .sigmoid ⟨⟨0, 0, 7⟩, .RND, .SAT⟩ ⟨1, 2, 5⟩) = some 512 := by decide +kernel
example : tableSize (tableConf .other ⟨⟨0, 0, 7⟩, .RND, .SAT⟩ ⟨1, 2, 5⟩) = some 256 := by decide +kernel

/-- **C37**, the input layer: if every layer it feeds is a quantizer and they share an overflow mode, a type is found for it;
and unless there is only one quantizer and it is merged into the input layer (C67), casting the input to that type makes no
difference to any of the quantizers. -/
theorem C37_input_layer (produced : KIF) (outs : List Down) (hne : outs ≠ []) (S : Sat)
    (hall : ∀ d ∈ outs, ∃ q, d = .quant q ∧ q.sat = S) :
    ∃ r, resultKifRS true produced outs = some r ∧
      (fusibleResult outs = none → ∀ q, Down.quant q ∈ outs → 1 ≤ r.kif.k + r.kif.i + r.kif.f →
        (r.kif.k = 0 ∨ r.kif.k = 1) → (q.rnd = .TRN ∨ q.rnd = .RND) → (q.sat = .SAT ∨ q.sat = .WRAP) →
        ∀ e (he : e < q.elems.length), (q.elems[e].keepNegative = 0 ∨ q.elems[e].keepNegative = 1) →
        0 ≤ q.elems[e].bits → ∀ x : ℚ, q.call e (r.kif.cast r.rnd r.sat x) = q.call e x) := by
  cases hf : fusibleResult outs with
  | some r => exact ⟨r, by simp [resultKifRS, hf], fun h => by cases h⟩
  | none =>
    have hq : ∃ qs, quantsOf outs = some qs ∧ (∀ q ∈ qs, q.sat = S) ∧ qs.length = outs.length := by
      clear hf hne
      induction outs with
      | nil => exact ⟨[], rfl, by simp, rfl⟩
      | cons d ds ih =>
        obtain ⟨qs, h1, h2, h3⟩ := ih fun d hd => hall d (by simp [hd])
        obtain ⟨q, rfl, hS⟩ := hall d (by simp)
        refine ⟨q :: qs, by simp [quantsOf, h1], ?_, by simp [h3]⟩
        intro q' hq'
        rcases List.mem_cons.mp hq' with rfl | hq'
        · exact hS
        · exact h2 q' hq'
    obtain ⟨qs, h1, h2, h3⟩ := hq
    cases qs with
    | nil => exact absurd (List.length_eq_zero_iff.mp h3.symm) hne
    | cons q0 qs =>
      have hsat : qs.all (fun q' => q'.sat = q0.sat) = true := by
        rw [List.all_eq_true]
        intro q' hq'
        simp [h2 q' (by simp [hq']), h2 q0 (by simp)]
      have hder : ∃ r, deriveFromNext outs = some r := by
        unfold deriveFromNext
        simp only [h1, hsat, if_true]
        exact ⟨_, rfl⟩
      obtain ⟨r, hr⟩ := hder
      refine ⟨r, by simp [resultKifRS, hf, hr], ?_⟩
      intro _ q hq hw hrk hR hS e he hEk hEb x
      exact C37_input_cast_invisible outs r hr hw hrk q hq hR hS e he hEk hEb x

/-- two different quantizers after one input layer -/
example : ∃ r, resultKifRS true ⟨1, 65535, 65535⟩ [.quant exQ1, .quant exQ2] = some r ∧
    ∀ x : ℚ, exQ1.call 1 (r.kif.cast r.rnd r.sat x) = exQ1.call 1 x := by
  obtain ⟨r, h1, h2⟩ := C37_input_layer ⟨1, 65535, 65535⟩ [.quant exQ1, .quant exQ2] (by simp) .WRAP (by
    intro d hd
    simp only [List.mem_cons, List.not_mem_nil, or_false] at hd
    rcases hd with rfl | rfl
    · exact ⟨_, rfl, rfl⟩
    · exact ⟨_, rfl, rfl⟩)
  have hr : resultKifRS true ⟨1, 65535, 65535⟩ [.quant exQ1, .quant exQ2] = some ⟨⟨1, 3, 4⟩, .TRN, .WRAP⟩ := by decide +kernel
  rw [hr] at h1
  cases h1
  exact ⟨_, hr, fun x => h2 (by decide +kernel) exQ1 (by simp) (by decide) (.inr rfl) (.inr rfl) (.inr rfl) 1 (by decide)
    (.inl rfl) (by decide) x⟩

end HGQ
