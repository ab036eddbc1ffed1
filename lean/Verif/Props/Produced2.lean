import Verif.Props.Merge
import Verif.Props.ProducedType
import Verif.Lemmas.Apf

/-!
Further theorems for C34, C36 and C40: average pooling over any window, dense layers with bias, layers that do not
quantize, printing of numbers.
-/

namespace HGQ

open Spec

theorem rv_trn_le (f : ℤ) (x : ℚ) : rv .TRN f x ≤ x ∧ x - rv .TRN f x < p2 (-f) := by
  unfold rv
  have h1 : rndMap .TRN (x * p2 f) = (⌊x * p2 f⌋ : ℚ) := rfl
  rw [h1]
  have hp := p2_pos (-f)
  have e : x = x * p2 f * p2 (-f) := by rw [mul_assoc, ← p2_add]; simp [p2]
  have l := mul_le_mul_of_nonneg_right (Int.floor_le (x * p2 f)) hp.le
  have u := mul_lt_mul_of_pos_right (Int.lt_floor_add_one (x * p2 f)) hp
  constructor
  · calc _ ≤ _ := l
      _ = x := e.symm
  · have : x < ((⌊x * p2 f⌋ : ℚ) + 1) * p2 (-f) := by rw [← e] at u; exact u
    linarith

/-- truncating a number inside the range of a type does not overflow -/
theorem cast_trn_range (s : Bool) {i f : ℤ} (hw : 1 ≤ s.toInt + i + f) {x : ℚ} (l : -((s.toInt : ℚ) * p2 i) ≤ x)
    (u : x < p2 i) : gq s i f .TRN .WRAP x = rv .TRN f x := by
  refine gq_of_kif s (by omega) .TRN .WRAP (by decide) x ⟨rv_grid _ _ _, ?_, ?_⟩
  · change -((s.toInt : ℚ) * p2 i) ≤ _
    have h2 := rv_mono .TRN f l
    rwa [rv_of_grid .TRN f] at h2
    rcases hcs : s with _ | _
    · exact ⟨0, by simp [toInt_false]⟩
    · rw [hcs, toInt_true] at hw
      have h0 : 0 ≤ i + f := by omega
      have := grid_neg (grid_p2 h0)
      simpa [toInt_true] using this
  · exact lt_of_le_of_lt (rv_trn_le f x).1 u

/-- **C34**, average pooling over any window of `n ≥ 1` values: stored in the derived type (truncating, as the data path
does) the average never overflows and loses less than one `n`-th of an input step. -/
theorem C34_avg_pool_error (t : KIF) (hk : t.k = 0 ∨ t.k = 1) (hw : 1 ≤ t.k + t.i + t.f) (w : List ℚ) (hl : 1 ≤ w.length)
    (h : ∀ x ∈ w, t.Holds x) :
    let y := w.sum / w.length
    let z := (avgPoolKif t w.length).cast .TRN .WRAP y
    z ≤ y ∧ y - z < (2 : ℚ) ^ (-t.f) / w.length := by
  intro y z
  obtain ⟨s, hs⟩ := bool_of_k hk
  have hn : (0 : ℚ) < w.length := by exact_mod_cast hl
  have hlo : -((s.toInt : ℚ) * p2 t.i) ≤ y := by
    have := sum_ge w (-((t.k : ℚ) * p2 t.i)) (fun x hx => (h x hx).2.1)
    rw [hs] at this
    rw [le_div_iff₀ hn]; linarith
  have hhi : y < p2 t.i := by
    have h1 : w.sum < w.length * p2 t.i := by
      have hne : w ≠ [] := by intro hc; rw [hc] at hl; simp at hl
      have : ∀ l : List ℚ, (∀ x ∈ l, x < p2 t.i) → l ≠ [] → l.sum < l.length * p2 t.i := by
        intro l
        induction l with
        | nil => intro _ h; exact absurd rfl h
        | cons a l ih =>
          intro hl _
          have ha := hl a (by simp)
          rcases Classical.em (l = []) with rfl | hne
          · simpa using ha
          · have := ih (fun x hx => hl x (by simp [hx])) hne
            simp only [List.sum_cons, List.length_cons]; push_cast; linarith
      exact this w (fun x hx => (h x hx).2.2) hne
    rw [div_lt_iff₀ hn]; linarith
  have hz : z = rv .TRN (t.f + Nat.clog 2 w.length) y := by
    show (avgPoolKif t w.length).cast .TRN .WRAP y = _
    rw [KIF.cast_eq_gq (avgPoolKif t w.length) s hs]
    exact cast_trn_range s (by simp only [avgPoolKif]; omega) hlo hhi
  have := rv_trn_le (t.f + Nat.clog 2 w.length) y
  rw [hz]
  refine ⟨this.1, lt_of_lt_of_le this.2 ?_⟩
  have hp : (w.length : ℚ) ≤ p2 (Nat.clog 2 w.length : ℤ) := by
    rw [p2_natCast]
    exact_mod_cast Nat.le_pow_clog (by norm_num) _
  have e : p2 (-(t.f + (Nat.clog 2 w.length : ℤ))) = p2 (-t.f) / p2 (Nat.clog 2 w.length : ℤ) := by
    rw [div_p2, ← p2_add]; congr 1; ring
  rw [e]
  exact div_le_div_of_nonneg_left (p2_pos _).le hn hp

/-- **C34**, `Dense`/`Conv` with bias, the part that holds: if the bias is on the product grid and the value does not
exceed the derived integer bits, the derived type (its sign bit in particular) holds the output. Missing: biases that are
finer or that add an integer bit (`C34_linear_bias_fails`). -/
theorem C34_linear_bias_partial (inp : KIF) (kernel bias : List ℚ) (units : ℕ) (terms : List (ℚ × ℚ)) (b : ℚ)
    (hgrid : ∀ w ∈ kernel, ∃ n : ℤ, w = n * (2 : ℚ) ^ (-32 : ℤ))
    (hx : ∀ p ∈ terms, inp.Holds p.1) (hw : ∀ p ∈ terms, p.2 ∈ kernel) (hb : b ∈ bias)
    (hbg : ∃ n : ℤ, b = n * (2 : ℚ) ^ (-(linearKif inp kernel bias units).f))
    (hr : |(terms.map fun p => p.1 * p.2).sum + b| < (2 : ℚ) ^ (linearKif inp kernel bias units).i) :
    (linearKif inp kernel bias units).Holds ((terms.map fun p => p.1 * p.2).sum + b) := by
  have hwh : ∀ p ∈ terms, (arrContainer kernel).Holds p.2 := fun p hp => C30_sound kernel hgrid p.2 (hw p hp)
  obtain ⟨h1, h2⟩ := abs_lt.mp hr
  refine ⟨?_, ?_, h2⟩
  · refine grid_add ?_ hbg
    refine sum_grid _ _ ?_
    intro y hy
    obtain ⟨p, hp, rfl⟩ := List.mem_map.mp hy
    exact mul_grid (hx p hp).1 (hwh p hp).1
  · have hkk : (linearKif inp kernel bias units).k =
      if inp.k ≠ 0 ∨ (arrContainer kernel).k ≠ 0 ∨ bias.any (fun b => decide (b < 0)) then 1 else 0 := rfl
    rw [hkk]
    split_ifs with hc
    · push_cast; linarith
    · push Not at hc
      obtain ⟨c1, c2, c3⟩ := hc
      have hb0 : 0 ≤ b := by
        by_contra hneg
        apply c3
        rw [List.any_eq_true]
        exact ⟨b, hb, by simpa using hneg⟩
      have hs : 0 ≤ (terms.map fun p => p.1 * p.2).sum := by
        apply List.sum_nonneg
        intro y hy
        obtain ⟨p, hp, rfl⟩ := List.mem_map.mp hy
        have a1 := (hx p hp).2.1
        have a2 := (hwh p hp).2.1
        rw [c1] at a1
        rw [c2] at a2
        simp at a1 a2
        exact mul_nonneg a1 a2
      simp only [Int.cast_zero, zero_mul, neg_zero]
      linarith

/-- a layer that does something else than quantizing or passing values on is fed by `d` -/
inductive FeedsOther : Down → Prop
  | other : FeedsOther .other
  | dead : FeedsOther (.pass [])
  | pass {outs : List Down} {d : Down} : d ∈ outs → FeedsOther d → FeedsOther (.pass outs)

theorem feedsOther_request {d : Down} (h : FeedsOther d) : KIF.Le infKif d.request := by
  induction h with
  | other => rw [Down.request]; exact ⟨le_rfl, le_rfl, le_rfl⟩
  | dead => rw [Down.request, requestList]; exact ⟨le_rfl, le_rfl, le_rfl⟩
  | pass hd _ ih => rw [Down.request]; exact ih.trans (request_mem_le hd)

/-- **C36**, layers that are not quantizers: if the value feeds such a layer, or is an output of the model, the data path
keeps every value of the produced type exactly. -/
theorem C36_other_exact (available : KIF) (hk : available.k = 0 ∨ available.k = 1) (hi : available.i ≤ 65535)
    (hf : available.f ≤ 65535) (outs : List Down) (ho : outs = [] ∨ ∃ d ∈ outs, FeedsOther d)
    (hw : 0 ≤ available.k + available.i + available.f) (x : ℚ) (hx : available.Holds x) :
    (mergePrecision available (requestList outs)).cast .TRN .WRAP x = x := by
  have hle : KIF.Le infKif (requestList outs) := by
    rcases ho with rfl | ⟨d, hd, h⟩
    · rw [requestList]; exact ⟨le_rfl, le_rfl, le_rfl⟩
    · exact (feedsOther_request h).trans (request_mem_le hd)
  obtain ⟨-, h2, h3⟩ := hle
  have e2 : infKif.i = 65535 := rfl
  have e3 : infKif.f = 65535 := rfl
  rw [e2] at h2
  rw [e3] at h3
  have hm : mergePrecision available (requestList outs) = available := by
    unfold mergePrecision
    simp only
    rw [if_neg (by omega), min_eq_left (by omega), min_eq_left (by omega)]
  rw [hm]
  obtain ⟨s, hs⟩ := bool_of_k hk
  rw [KIF.cast_eq_gq _ s hs]
  have hx' : IsKif s.toInt available.i available.f x := hs ▸ hx
  rw [gq_of_kif s (by omega) .TRN .WRAP (by decide) x (by rw [rv_of_grid _ _ hx'.1]; exact hx'), rv_of_grid _ _ hx'.1]

theorem digitCh_eq {d : ℕ} (h : d < 10) : digitCh d = Nat.digitChar d := by
  revert h; revert d; decide

theorem natRepr_eq (n : ℕ) : natRepr n = Nat.toDigits 10 n := by
  induction n using Nat.strong_induction_on with
  | _ n ih =>
    rw [Nat.toDigits_eq_if (by norm_num)]
    unfold natRepr
    rcases Nat.lt_or_ge n 10 with h | h
    · rw [if_pos h]
      rcases Nat.eq_zero_or_pos n with rfl | hp
      · rfl
      · rw [if_neg (by omega), Nat.digits_def' (by norm_num) hp, Nat.div_eq_of_lt h]
        simp [Nat.mod_eq_of_lt h, digitCh_eq h]
    · rw [if_neg (by omega), if_neg (by omega), Nat.digits_def' (by norm_num) (by omega)]
      have := ih (n / 10) (by omega)
      unfold natRepr at this
      rw [if_neg (by omega)] at this
      rw [List.map_cons, List.reverse_cons, this, digitCh_eq (Nat.mod_lt _ (by norm_num))]

/-- **C40**, numbers inside type strings are printed in the usual decimal notation. -/
theorem C40_decimal (n : ℤ) : String.ofList (intRepr n) = toString n := by
  unfold intRepr
  rw [natRepr_eq]
  rcases n with n | n
  · rw [if_neg (by simp)]
    show _ = Nat.repr n
    rw [Nat.repr_eq_ofList_toDigits]; rfl
  · rw [if_pos (by simp)]
    show _ = "-" ++ Nat.repr (n + 1)
    rw [Nat.repr_eq_ofList_toDigits]
    apply String.toList_injective
    simp

/-! Non-vacuity -/

example : let y := ([0, 0, 1] : List ℚ).sum / 3; (avgPoolKif ⟨0, 1, 0⟩ 3).cast .TRN .WRAP y = 1 / 4 := by decide +kernel

example : (linearKif ⟨0, 1, 0⟩ [1] [-1] 1).Holds ((([(0, 1)] : List (ℚ × ℚ)).map fun p => p.1 * p.2).sum + -1) :=
  C34_linear_bias_partial ⟨0, 1, 0⟩ [1] [-1] 1 [(0, 1)] (-1) (by simp; exact ⟨4294967296, by norm_num⟩)
    (by simp; exact ⟨⟨0, by norm_num⟩, by norm_num, by norm_num⟩) (by simp) (by simp)
    ⟨-1, by rw [show (linearKif ⟨0, 1, 0⟩ [1] [-1] 1).f = 0 by decide +kernel]; norm_num⟩
    (by rw [show (linearKif ⟨0, 1, 0⟩ [1] [-1] 1).i = 2 by decide +kernel]; norm_num)

example : (mergePrecision ⟨1, 3, 2⟩ (requestList [.quant (FPQ.const 1 0 1 0 .TRN .WRAP), .other])).cast .TRN .WRAP (-31 / 4) =
    -31 / 4 :=
  C36_other_exact ⟨1, 3, 2⟩ (.inr rfl) (by norm_num) (by norm_num) _ (.inr ⟨.other, by simp, .other⟩) (by norm_num) _
    (KIF.holds_of_holdsB (by decide +kernel))

end HGQ
