import Verif.Props.Container

/-!
C31, exactly: for which arrays `get_arr_bits` reports the true bits.
-/

namespace HGQ

theorem arrBitsEntry_f_le (n : ℕ) (a : ℚ) : (arrBitsEntry n a).f ≤ 32 := by
  unfold arrBitsEntry
  dsimp only
  have h : (0 : ℤ) ≤ countDiv |a * p2 32| n + (if |a * p2 32| = 1 then 1 else 0) := by split <;> omega
  generalize (countDiv |a * p2 32| n + (if |a * p2 32| = 1 then 1 else 0) : ℤ) = l at h ⊢
  generalize (if |a * p2 32| ≠ 0 then Int.log 2 |a * p2 32| + 1 else l) = u
  by_cases hc : u - l - (32 - l) + (32 - l) = 0
  · rw [if_pos hc]; norm_num
  · rw [if_neg hc]; dsimp only; omega

theorem arrBitsEntry_one {a : ℚ} (n : ℕ) (h : |a * p2 32| = 1) : (arrBitsEntry n a).i = 0 := by
  unfold arrBitsEntry
  have hc : countDiv 1 n = 0 := by
    have := countDiv_eq (t := 0) (o := 1) (n := n) odd_one
    simpa using this
  have hl : Int.log 2 (1 : ℚ) = 0 := Int.log_one_right 2
  simp only [h, hc, hl]
  norm_num

/-- **C31**, exactly (in exact arithmetic): `get_arr_bits` reports the true sign, highest and lowest bit of all entries if and only if every entry has
at most 32 fractional bits and none is `2^-32` or `-2^-32`. -/
theorem C31_iff (arr : List ℚ) : List.Forall₂ TrueBits arr (getArrBits id arr) ↔
    ∀ a ∈ arr, (∃ n : ℤ, a = n * (2 : ℚ) ^ (-32 : ℤ)) ∧ |a| ≠ (2 : ℚ) ^ (-32 : ℤ) := by
  rw [getArrBits_eq, List.forall₂_map_right_iff, List.forall₂_same]
  refine forall₂_congr fun a ha => ?_
  have habs : |a * p2 32| = |a| * p2 32 := by rw [abs_mul, abs_of_pos (p2_pos 32)]
  have hone : |a * p2 32| = 1 ↔ |a| = (2 : ℚ) ^ (-32 : ℤ) := by
    rw [habs]
    change _ ↔ |a| = p2 (-32)
    constructor
    · intro h
      rw [← mul_one |a|, ← p2_mul_neg 32, ← mul_assoc, h, one_mul]
    · intro h; rw [h, p2_neg_mul]
  by_cases h0 : a = 0
  · subst h0
    rw [arrBitsEntry_zero]
    refine ⟨fun _ => ⟨⟨0, by simp⟩, by norm_num⟩, fun _ => ⟨fun _ => rfl, fun h => absurd rfl h⟩⟩
  constructor
  · intro h
    obtain ⟨-, -, ⟨n, -, hn⟩, h4, h5⟩ := h.2 h0
    refine ⟨grid_mono (f := _) (g := 32) (arrBitsEntry_f_le _ a) ⟨n, hn⟩, fun hc => ?_⟩
    rw [arrBitsEntry_one _ (hone.2 hc), hc] at h4
    norm_num at h4
  · rintro ⟨hg, hne⟩
    obtain ⟨t, o, ho, hto⟩ := exists_decomp hg h0
    refine arrBitsEntry_true ho hto (fun hc => hne (hone.1 (by rw [hto, hc]; norm_num))) ?_
    have hmem : |a * p2 32| ∈ arr.map fun a => |a * p2 32| := List.mem_map.mpr ⟨a, ha, rfl⟩
    have hn := le_arrBitsN id hmem
    rw [hto] at hn
    have hpos : 2 ^ t * o ≠ 0 := by have := ho.pos; positivity
    simp only [id] at hn
    rw [clog_succ_toNat _ hpos] at hn
    have := t_le_log (t := t) ho
    omega

-- 3·2^-32 next to 5 is reported right, 2^-32 is not
example : List.Forall₂ TrueBits [3 * (2 : ℚ) ^ (-32 : ℤ), 5] (getArrBits id [3 * (2 : ℚ) ^ (-32 : ℤ), 5]) :=
  (C31_iff _).2 (by
    intro a ha
    simp only [List.mem_cons, List.not_mem_nil, or_false] at ha
    rcases ha with rfl | rfl
    · exact ⟨⟨3, by norm_num⟩, by norm_num⟩
    · exact ⟨⟨5 * 2 ^ 32, by norm_num⟩, by norm_num⟩)

example : getArrBits id [3 * (2 : ℚ) ^ (-32 : ℤ), 5] = [⟨0, -30, 32⟩, ⟨0, 3, 0⟩] ∧ getArrBits id [-(2 : ℚ) ^ (-32 : ℤ), 5] = [⟨1, 0, 0⟩, ⟨0, 3, 0⟩] := by
  constructor <;> decide +kernel

end HGQ
