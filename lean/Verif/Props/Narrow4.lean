import Verif.Props.Narrow3

/-!
C35 for quantizers that are pruned altogether: the type query can leave them with a negative number of bits, and they stay zero.
-/

namespace HGQ

open Spec

/-- floor-mod of an integer by a fraction `2^b`, `b ≤ 0`, vanishes -/
theorem floorMod_pow_nonpos (n : ℤ) {b : ℤ} (hb : b ≤ 0) : floorMod (n : ℚ) (p2 b) = 0 := by
  obtain ⟨m, hm⟩ := Int.eq_ofNat_of_zero_le (by omega : 0 ≤ -b)
  have hpos := p2_pos b
  have h1 : (n : ℚ) / p2 b = ((n * 2 ^ m : ℤ) : ℚ) := by
    rw [div_eq_iff hpos.ne']
    have : p2 b * (2 : ℚ) ^ m = 1 := by
      unfold p2
      rw [← zpow_natCast, ← zpow_add₀ (by norm_num), show b + ((m : ℕ) : ℤ) = 0 by omega, zpow_zero]
    push_cast
    rw [mul_assoc, mul_comm ((2 : ℚ) ^ m), this, mul_one]
  unfold floorMod
  rw [h1, Int.floor_intCast, ← h1]
  field_simp
  ring

/-- An unsigned element without bits, or with a negative number of bits, returns zero, in every rounding and overflow mode. -/
theorem KBI.apply_nonpos_bits {E : KBI} (hk : E.keepNegative = 0) (hb : E.bits ≤ 0) (R : Rnd) (S : Sat) (x : ℚ) :
    E.apply R S x = 0 := by
  rcases eq_or_lt_of_le hb with h0 | h0
  · exact KBI.apply_zero_bits (.inl hk) h0 R S x
  unfold KBI.apply gfixedQuantizer
  simp only [hk]
  obtain ⟨n, hn⟩ := rndMap_int R (x * p2 (E.bits - E.integers))
  have hp := p2_pos E.bits
  have hp1 : p2 E.bits ≤ 1 / 2 := by
    have : p2 E.bits ≤ p2 (-1) := p2_le_p2 (by omega)
    have e : p2 (-1) = 1 / 2 := by unfold p2; norm_num
    linarith
  have key : satMap S (rndMap R (x * p2 (E.bits - E.integers))) 0 E.bits = 0 := by
    rw [hn]
    cases S
    · show satSAT _ _ _ = 0
      unfold satSAT clipByValue
      simp only [sub_zero, Int.cast_zero, mul_zero]
      exact max_eq_right (min_le_of_right_le (by linarith))
    · show satZERO _ _ _ = 0
      unfold satZERO
      simp only [sub_zero, Int.cast_zero, mul_zero]
      rw [if_neg (by rintro ⟨h1, h2⟩; linarith), mul_zero]
    · show satSYM _ _ _ = 0
      unfold satSYM clipByValue
      simp only [sub_zero, Int.cast_zero, mul_zero]
      exact max_eq_right (min_le_of_right_le (by linarith))
    · show satWRAP _ _ _ = 0
      unfold satWRAP
      simp only [sub_zero, Int.cast_zero, mul_zero, sub_add_cancel, add_zero]
      exact floorMod_pow_nonpos n hb
    · show satWRAPSM _ _ _ = 0
      unfold satWRAPSM
      simp only [sub_zero, Int.cast_zero, mul_zero, sub_add_cancel, add_zero]
      have e1 : p2 E.bits * 2 = p2 (E.bits + 1) := by
        unfold p2; rw [zpow_add₀ (by norm_num)]; norm_num
      have e2 : floorMod ((n : ℚ) - (p2 E.bits - 1) - 1) (p2 E.bits * 2) = p2 E.bits := by
        have h := floorMod_pow_nonpos n (b := E.bits + 1) (by omega)
        rw [← e1] at h
        unfold floorMod at h ⊢
        set P := p2 E.bits with hP
        have hden : (0 : ℚ) < P * 2 := by linarith
        have h2 : (⌊(n : ℚ) / (P * 2)⌋ : ℚ) = n / (P * 2) := by
          have : (⌊(n : ℚ) / (P * 2)⌋ : ℚ) * (P * 2) = n := by linarith
          rw [eq_div_iff hden.ne']; exact this
        have h3 : ⌊((n : ℚ) - (P - 1) - 1) / (P * 2)⌋ = ⌊(n : ℚ) / (P * 2)⌋ - 1 := by
          rw [Int.floor_eq_iff]
          have e3 : ((n : ℚ) - (P - 1) - 1) / (P * 2) = n / (P * 2) - 1 / 2 := by field_simp; ring
          rw [e3]
          push_cast
          rw [h2]
          constructor <;> linarith
        rw [h3]
        push_cast
        rw [h2]
        field_simp
        ring
      rw [e2, show p2 E.bits - p2 E.bits * 2 / 2 + 1 / 2 = 1 / 2 by ring]
      norm_num
  rw [key]
  simp

/-- a quantizer all of whose elements are pruned -/
def FPQ.AllPruned (q : FPQ) : Prop := ∀ e ∈ q.elems, e = KBI.pruned

theorem kif_const_pruned {q : FPQ} (h : ∀ e ∈ q.elems, e = KBI.pruned) : q.kif = ⟨0, 0, 0⟩ := by
  by_cases hne : q.elems = []
  · unfold FPQ.kif resultTKif
    rw [hne]
    rfl
  · rw [q.kif_const KBI.pruned hne h]
    rfl

/-- the elements left behind by a type query: unsigned, with no or a negative number of bits -/
theorem FPQ.AllPruned.after {q : FPQ} (h : q.AllPruned) (inp : KIF) (hik : 0 ≤ inp.k) :
    ∀ e ∈ (q.produced inp).2.elems, e.keepNegative = 0 ∧ e.bits ≤ 0 := by
  intro e he
  rw [q.produced_snd, kif_const_pruned h] at he
  split_ifs at he
  · obtain ⟨e0, he0, rfl⟩ := List.mem_map.mp he
    rw [h e0 he0]
    simp only [KBI.pruned]
    omega
  · rw [h e he]; exact ⟨rfl, le_rfl⟩

/-- **C35**, quantizers that are pruned altogether (every value recorded for them was zero): in every rounding and overflow mode, behind
every type, the query leaves the output at zero, even where it leaves a negative number of bits behind. -/
theorem C35_pruned (q : FPQ) (h : q.AllPruned) (inp : KIF) (hik : inp.k = 0 ∨ inp.k = 1) (x : ℚ) (e : ℕ) (he : e < q.elems.length) :
    q.call e x = 0 ∧ (q.produced inp).2.call e x = 0 ∧ (q.produced inp).1.Holds (q.call e x) := by
  have h0 : q.call e x = 0 := by
    unfold FPQ.call
    rw [getD_lt _ _ he, h _ (List.getElem_mem he)]
    exact KBI.apply_zero_bits (.inl rfl) rfl _ _ _
  have hlen : (q.produced inp).2.elems.length = q.elems.length := by
    rw [q.produced_snd]; split_ifs <;> simp
  refine ⟨h0, ?_, ?_⟩
  · unfold FPQ.call
    rw [getD_lt _ _ (by omega)]
    obtain ⟨h1, h2⟩ := h.after inp (by omega) _ (List.getElem_mem (by omega : e < (q.produced inp).2.elems.length))
    exact KBI.apply_nonpos_bits h1 h2 _ _ _
  · rw [h0, q.produced_fst, kif_const_pruned h]
    refine ⟨⟨0, by simp⟩, ?_, zpow2_pos _⟩
    have : min inp.k 0 = 0 := by omega
    simp [this]

/-- … and asking again gives the same answer. -/
theorem C35_pruned_idempotent (q : FPQ) (h : q.AllPruned) (hne : q.elems ≠ []) (inp : KIF) (hik : inp.k = 0 ∨ inp.k = 1) :
    (q.produced inp).2.produced inp = q.produced inp := by
  have hh : heterogeneous q.elems = false := by
    rw [C09_heterogeneous_iff]
    intro a ha b hb
    rw [h a ha, h b hb]
  exact C35_query_idempotent q hh hne inp (by omega) (by rw [kif_const_pruned h]; simp)

-- behind a narrow type the query leaves -2 bits
example : let q : FPQ := ⟨[⟨0, 0, 0⟩, ⟨0, 0, 0⟩], .TRN, .SAT⟩
    (q.produced ⟨1, -3, 10⟩).2.elems = [⟨0, -2, -2⟩, ⟨0, -2, -2⟩] ∧ (q.produced ⟨1, -3, 10⟩).2.call 0 (-1 / 100) = 0 := by decide +kernel

end HGQ
