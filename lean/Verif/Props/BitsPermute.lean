import Verif.Props.BitsFlow

/-!
C75 for permutations, exactly: when the bits `PPermute` passes on describe the permuted values.
-/

namespace HGQ
open Spec

theorem kif_zero {b : KIF} (hk : b.k = 0 ∨ b.k = 1) : IsKif b.k b.i b.f 0 := by
  refine ⟨⟨0, by simp⟩, ?_, zpow2_pos _⟩
  have := zpow2_pos b.i
  rcases hk with h | h <;> rw [h] <;> push_cast <;> linarith

/-- a type without bits contains 0 only -/
theorem kif_only_zero {b : KIF} {v : ℚ} (hk : b.k = 0 ∨ b.k = 1) (hw : b.width ≤ 0) (h : IsKif b.k b.i b.f v) : v = 0 := by
  obtain ⟨n, hn, n1, n2⟩ := kif_int_bounds hk h
  unfold KIF.width at hw
  have h0 : n = 0 := by
    rcases hk with hk | hk
    · rw [hk] at hw n1
      have h1 : (2 : ℚ) ^ (b.i + b.f) ≤ 1 := by
        calc (2 : ℚ) ^ (b.i + b.f) ≤ (2 : ℚ) ^ (0 : ℤ) := zpow_le_zpow_right₀ (by norm_num) (by omega)
          _ = 1 := by norm_num
      have a : (n : ℚ) < 1 := lt_of_lt_of_le n2 h1
      have c : (0 : ℚ) ≤ n := by push_cast at n1; linarith
      have : n < 1 := by exact_mod_cast a
      have : 0 ≤ n := by exact_mod_cast c
      omega
    · rw [hk] at hw n1
      have h1 : (2 : ℚ) ^ (b.i + b.f) ≤ 1 / 2 := by
        calc (2 : ℚ) ^ (b.i + b.f) ≤ (2 : ℚ) ^ (-1 : ℤ) := zpow_le_zpow_right₀ (by norm_num) (by omega)
          _ = 1 / 2 := by norm_num
      have a : (n : ℚ) < 1 := by linarith
      have c : (-1 : ℚ) < n := by push_cast at n1; linarith
      have : n < 1 := by exact_mod_cast a
      have : -1 < n := by exact_mod_cast c
      omega
  rw [hn, h0]
  simp

/-- the units of a type that contains all values of another, and the number of values -/
theorem kif_units {b b' : KIF} (hk : b.k = 0 ∨ b.k = 1) (hk' : b'.k = 0 ∨ b'.k = 1) (hw : 0 < b.width)
    (h : ∀ v, IsKif b.k b.i b.f v → IsKif b'.k b'.i b'.f v) :
    ∃ P d : ℤ, 1 ≤ P ∧ 1 ≤ d ∧ (P : ℚ) = (2 : ℚ) ^ (b.width - 1) ∧ (2 : ℚ) ^ (-b.f) = d * (2 : ℚ) ^ (-b'.f) ∧ ((2 * P - 1) * d : ℚ) < (2 : ℚ) ^ b'.width := by
  obtain ⟨m, hm⟩ : ∃ m : ℕ, b.i + b.f = m := by
    refine ⟨(b.i + b.f).toNat, ?_⟩
    unfold KIF.width at hw
    rcases hk with h | h <;> omega
  have hi : (2 : ℚ) ^ b.i = 2 ^ m * (2 : ℚ) ^ (-b.f) := by
    rw [← zpow_natCast, ← hm, ← zpow_add₀ (by norm_num)]; congr 1; ring
  have hu : (0 : ℚ) < (2 : ℚ) ^ (-b.f) := zpow2_pos _
  have hu' : (0 : ℚ) < (2 : ℚ) ^ (-b'.f) := zpow2_pos _
  -- the values with the integers from `-k 2^m` to `2^m - 1`
  have mem : ∀ n : ℤ, -(b.k * 2 ^ m) ≤ n → n < 2 ^ m → IsKif b.k b.i b.f (n * (2 : ℚ) ^ (-b.f)) := by
    intro n h1 h2
    have h1 : -((b.k : ℚ) * 2 ^ m) ≤ n := by exact_mod_cast h1
    have h2 : (n : ℚ) < 2 ^ m := by exact_mod_cast h2
    refine ⟨⟨n, rfl⟩, ?_, ?_⟩
    · rw [hi]; nlinarith
    · rw [hi]; nlinarith
  -- twice `P` values
  obtain ⟨P, hP1, hP⟩ : ∃ P : ℤ, 1 ≤ P ∧ (1 + b.k) * 2 ^ m = 2 * P ∧ (P : ℚ) = (2 : ℚ) ^ (b.width - 1) := by
    unfold KIF.width at hw ⊢
    rcases hk with h | h
    · obtain ⟨l, rfl⟩ : ∃ l, m = l + 1 := ⟨m - 1, by omega⟩
      refine ⟨2 ^ l, one_le_pow₀ (by norm_num), by rw [h, pow_succ]; ring, ?_⟩
      rw [show b.k + b.i + b.f - 1 = (l : ℤ) by omega, zpow_natCast]; push_cast; rfl
    · refine ⟨2 ^ m, one_le_pow₀ (by norm_num), by rw [h]; ring, ?_⟩
      rw [show b.k + b.i + b.f - 1 = (m : ℤ) by omega, zpow_natCast]; push_cast; rfl
  have e0 := h _ (mem (-(b.k * 2 ^ m)) le_rfl (by nlinarith [hP.1]))
  have e1 := h _ (mem (-(b.k * 2 ^ m) + 1) (by omega) (by nlinarith [hP.1]))
  have e2 := h _ (mem (2 ^ m - 1) (by nlinarith [hP.1]) (by omega))
  obtain ⟨n0, a0, l0, -⟩ := kif_int_bounds hk' e0
  obtain ⟨n1, a1, -, -⟩ := kif_int_bounds hk' e1
  obtain ⟨n2, a2, -, r2⟩ := kif_int_bounds hk' e2
  generalize hgu : (2 : ℚ) ^ (-b.f) = u at *
  generalize hgu' : (2 : ℚ) ^ (-b'.f) = u' at *
  have d1 : u = (n1 - n0) * u' := by push_cast at a0 a1; linarith
  have hd : 1 ≤ n1 - n0 := by
    have : (0 : ℚ) < n1 - n0 := by
      by_contra hc
      push Not at hc
      have := mul_nonpos_of_nonpos_of_nonneg hc hu'.le
      linarith
    have : (0 : ℤ) < n1 - n0 := by exact_mod_cast this
    omega
  have d2 : (n2 : ℚ) - n0 = (2 * P - 1) * (n1 - n0) := by
    have : ((n2 : ℚ) - n0) * u' = (2 * P - 1) * (n1 - n0) * u' := by
      have hPq : (1 + (b.k : ℚ)) * 2 ^ m = 2 * P := by exact_mod_cast hP.1
      calc ((n2 : ℚ) - n0) * u' = n2 * u' - n0 * u' := by ring
        _ = (2 * P - 1) * u := by rw [← a2, ← a0, ← hPq]; push_cast; ring
        _ = _ := by rw [d1]; ring
    exact mul_right_cancel₀ hu'.ne' this
  have hspan : (n2 : ℚ) - n0 < (2 : ℚ) ^ b'.width := by
    have : (2 : ℚ) ^ b'.width = (1 + b'.k) * (2 : ℚ) ^ (b'.i + b'.f) := by
      unfold KIF.width
      rcases hk' with h | h
      · rw [h]; push_cast; rw [zero_add]; ring
      · rw [h, add_assoc, zpow_add₀ (by norm_num)]; push_cast; norm_num
    rw [this]
    linarith
  refine ⟨P, n1 - n0, hP1, hd, hP.2, by push_cast; exact d1, ?_⟩
  push_cast
  rw [← d2]
  exact hspan

/-- a type that contains all values of another has at least as many bits -/
theorem kif_width_le {b b' : KIF} (hk : b.k = 0 ∨ b.k = 1) (hk' : b'.k = 0 ∨ b'.k = 1) (hw : 0 < b.width)
    (h : ∀ v, IsKif b.k b.i b.f v → IsKif b'.k b'.i b'.f v) : b.width ≤ b'.width := by
  obtain ⟨P, d, hP1, hd, hP, -, hspan⟩ := kif_units hk hk' hw h
  by_contra hc
  push Not at hc
  have hw' : (2 : ℚ) ^ b'.width ≤ P := by
    rw [hP]
    exact zpow_le_zpow_right₀ (by norm_num) (by omega)
  have hPq : (1 : ℚ) ≤ P := by exact_mod_cast hP1
  have hdq : (1 : ℚ) ≤ d := by exact_mod_cast hd
  nlinarith

/-- a type of width `w` that contains the values of `b` exists if `w` is at least the number of bits of `b`, or `b` has none -/
theorem kif_wider {b : KIF} (hk : b.k = 0 ∨ b.k = 1) {w : ℤ} (h : 0 < b.width → b.width ≤ w) : ∃ b' : KIF, (b'.k = 0 ∨ b'.k = 1) ∧ b'.width = w ∧
    ∀ v, IsKif b.k b.i b.f v → IsKif b'.k b'.i b'.f v := by
  by_cases hw : 0 < b.width
  · refine ⟨⟨b.k, b.i + (w - b.width), b.f⟩, hk, by unfold KIF.width; ring, fun v hv => ⟨hv.1, ?_, ?_⟩⟩
    · have : (2 : ℚ) ^ b.i ≤ (2 : ℚ) ^ (b.i + (w - b.width)) := zpow_le_zpow_right₀ (by norm_num) (by have := h hw; omega)
      have h2 := hv.2.1
      dsimp only
      rcases hk with hk | hk <;> rw [hk] at h2 ⊢ <;> push_cast at h2 ⊢ <;> linarith
    · exact lt_of_lt_of_le hv.2.2 (zpow_le_zpow_right₀ (by norm_num) (by have := h hw; dsimp only; omega))
  · refine ⟨⟨0, w, 0⟩, .inl rfl, by unfold KIF.width; ring, fun v hv => ?_⟩
    rw [kif_only_zero hk (by omega) hv]
    exact kif_zero (b := ⟨0, w, 0⟩) (.inl rfl)

/-- **C75**, permutations, exactly: `PPermute` reports for its output the bits of its input in the old order (`C75_permute`). They describe all
permuted values exactly if the permutation moves no position to one with another number of bits (types with a negative number of bits count as
having none). -/
theorem C75_permute_iff (F : List KIF) (hk : ∀ b ∈ F, b.k = 0 ∨ b.k = 1) (σ : ℕ → ℕ) (hσ : ∀ p < F.length, σ p < F.length)
    (hinj : ∀ p < F.length, ∀ q < F.length, σ p = σ q → p = q) :
    Describes (F.map KIF.width) {y | ∃ x, Typed F x ∧ y = (List.range F.length).map fun p => x.getD (σ p) 0} ↔
    ∀ p (hp : p < F.length), max 0 (F[σ p]'(hσ p hp)).width = max 0 F[p].width := by
  have hkp : ∀ p (hp : p < F.length), F[p].k = 0 ∨ F[p].k = 1 := fun p hp => hk _ (List.getElem_mem hp)
  -- the condition position by position
  have hiff : Describes (F.map KIF.width) {y | ∃ x, Typed F x ∧ y = (List.range F.length).map fun p => x.getD (σ p) 0} ↔
      ∀ p (hp : p < F.length), 0 < (F[σ p]'(hσ p hp)).width → (F[σ p]'(hσ p hp)).width ≤ F[p].width := by
    constructor
    · rintro ⟨G, hG, hw, hd⟩ p hp hpos
      have hlen : G.length = F.length := by have := congrArg List.length hw; simpa using this.symm
      have hp' : p < G.length := by rw [hlen]; exact hp
      have hwp : F[p].width = G[p].width := by
        have := congrArg (fun l : List ℤ => l[p]?) hw
        simpa [List.getElem?_map, List.getElem?_eq_getElem hp, List.getElem?_eq_getElem hp'] using this
      rw [hwp]
      refine kif_width_le (hkp _ (hσ p hp)) (hG _ (List.getElem_mem hp')) hpos fun v hv => ?_
      -- the tensor with `v` at position `σ p` and zeros elsewhere
      have ht : Typed F ((List.range F.length).map fun q => if q = σ p then v else 0) := by
        refine List.forall₂_iff_get.mpr ⟨by simp, fun q h1 h2 => ?_⟩
        simp only [List.get_eq_getElem, List.getElem_map, List.getElem_range]
        split_ifs with hq
        · subst hq; exact hv
        · exact kif_zero (hkp q h1)
      have := hd _ ⟨_, ht, rfl⟩
      have := (List.forall₂_iff_get.mp this).2 p hp' (by simpa using hp)
      simp only [List.get_eq_getElem, List.getElem_map, List.getElem_range] at this
      rw [List.getD_eq_getElem?_getD, List.getElem?_map, List.getElem?_range (hσ p hp)] at this
      simpa using this
    · intro h
      have : Nonempty KIF := ⟨⟨0, 0, 0⟩⟩
      choose! B hB using fun (p : ℕ) (hp : p < F.length) => kif_wider (hkp _ (hσ p hp)) (h p hp)
      refine ⟨(List.range F.length).map B, ?_, ?_, ?_⟩
      · intro b hb
        obtain ⟨p, hp, rfl⟩ := List.mem_map.mp hb
        exact (hB p (List.mem_range.mp hp)).1
      · refine List.ext_getElem (by simp) fun p h1 h2 => ?_
        have hp : p < F.length := by simpa using h1
        simp [(hB p hp).2.1]
      · rintro y ⟨x, hx, rfl⟩
        have hl : F.length = x.length := hx.length_eq
        refine List.forall₂_iff_get.mpr ⟨by simp, fun p h1 h2 => ?_⟩
        have hp : p < F.length := by simpa using h1
        simp only [List.get_eq_getElem, List.getElem_map, List.getElem_range]
        have hs : σ p < x.length := by rw [← hl]; exact hσ p hp
        rw [List.getD_eq_getElem?_getD, List.getElem?_eq_getElem hs, Option.getD_some]
        exact (hB p hp).2.2 _ ((List.forall₂_iff_get.mp hx).2 (σ p) (hσ p hp) hs)
  rw [hiff]
  constructor
  · intro h
    -- no position may lose bits, so none can gain any
    set w : ℕ → ℤ := fun p => if hp : p < F.length then max 0 F[p].width else 0 with hwdef
    have hle : ∀ p ∈ Finset.range F.length, w (σ p) ≤ w p := by
      intro p hp
      have hp := Finset.mem_range.mp hp
      simp only [hwdef, dif_pos hp, dif_pos (hσ p hp)]
      have := h p hp
      rcases le_or_gt (F[σ p]'(hσ p hp)).width 0 with h0 | h0
      · rw [max_eq_left h0]; exact le_max_left _ _
      · exact max_le_max le_rfl (this h0)
    have himg : (Finset.range F.length).image σ = Finset.range F.length := by
      refine Finset.eq_of_subset_of_card_le ?_ ?_
      · intro q hq
        obtain ⟨p, hp, rfl⟩ := Finset.mem_image.mp hq
        exact Finset.mem_range.mpr (hσ p (Finset.mem_range.mp hp))
      · rw [Finset.card_image_of_injOn]
        intro p hp q hq he
        exact hinj p (Finset.mem_range.mp (Finset.mem_coe.mp hp)) q (Finset.mem_range.mp (Finset.mem_coe.mp hq)) he
    have hsum : ∑ p ∈ Finset.range F.length, w (σ p) = ∑ p ∈ Finset.range F.length, w p := by
      conv_rhs => rw [← himg]
      rw [Finset.sum_image]
      intro p hp q hq he
      exact hinj p (Finset.mem_range.mp (Finset.mem_coe.mp hp)) q (Finset.mem_range.mp (Finset.mem_coe.mp hq)) he
    intro p hp
    have := (Finset.sum_eq_sum_iff_of_le hle).mp hsum p (Finset.mem_range.mpr hp)
    simpa only [hwdef, dif_pos hp, dif_pos (hσ p hp)] using this
  · intro h p hp hpos
    have := h p hp
    rw [max_eq_right hpos.le] at this
    rcases le_or_gt F[p].width 0 with h0 | h0
    · rw [max_eq_left h0] at this; omega
    · rw [max_eq_right h0.le] at this; exact this.le

-- swapping two positions with 3 bits each, of different types, is described; the condition fails for 0 and 3 bits
example : Describes [3, 3] {y | ∃ x, Typed [⟨0, 3, 0⟩, ⟨1, 0, 2⟩] x ∧ y = (List.range 2).map fun p => x.getD (1 - p) 0} :=
  (C75_permute_iff [⟨0, 3, 0⟩, ⟨1, 0, 2⟩] (by simp) (fun p => 1 - p) (fun p hp => by simp at hp ⊢)
    (fun p hp q hq h => by simp at hp hq; omega)).mpr (by
      intro p hp
      simp only [List.length_cons, List.length_nil] at hp
      have : p = 0 ∨ p = 1 := by omega
      rcases this with rfl | rfl <;> rfl)

example : ¬ Describes [0, 3] {y | ∃ x, Typed [⟨0, 0, 0⟩, ⟨0, 3, 0⟩] x ∧ y = (List.range 2).map fun p => x.getD (1 - p) 0} := fun h => by
  have := (C75_permute_iff [⟨0, 0, 0⟩, ⟨0, 3, 0⟩] (by simp) (fun p => 1 - p) (fun p hp => by simp at hp ⊢)
    (fun p hp q hq h => by simp at hp hq; omega)).mp h 0 (by simp)
  revert this
  decide

end HGQ
