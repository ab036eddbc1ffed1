import Verif.Props.Bits
import Verif.Props.BitsFlow

/-!
C32 for activations with any recorded range, not only ranges on the grid. Ranges leave the grid when the bitwidths change after recording
(each training step) and when `trace_minmax` clamps the range of sigmoid, softmax or tanh outputs with negative bitwidths.
-/

namespace HGQ
open Spec

theorem ceilLog2_le_iff {x : ℚ} (hx : 0 ≤ x) (m : ℤ) : ceilLog2 x ≤ (m : WithBot ℤ) ↔ x ≤ (2 : ℚ) ^ m := by
  unfold ceilLog2
  split_ifs with h
  · rw [h]
    exact iff_of_true bot_le (zpow2_pos m).le
  · rw [WithBot.coe_le_coe]
    have := Int.le_zpow_iff_clog_le (b := 2) (x := m) (r := x) (by norm_num) (lt_of_le_of_ne hx (Ne.symm h))
    exact_mod_cast this.symm

theorem clipBits_le_iff (i : WithBot ℤ) {lo m : ℤ} (hm : lo ≤ m) : clipBits i lo ≤ m ↔ 32 ≤ m ∨ i ≤ (m : WithBot ℤ) := by
  cases i with
  | bot =>
    change min lo 32 ≤ m ↔ _
    exact iff_of_true (le_trans (min_le_left _ _) hm) (.inr bot_le)
  | coe n =>
    change min (max n lo) 32 ≤ m ↔ _
    rw [WithBot.coe_le_coe]
    omega

theorem reluBits_le_iff {x : ℚ} (hx : 0 ≤ x) {f m : ℤ} (hm : -f ≤ m) :
    reluBits ((floorLog2 x).map (· + 1)) f ≤ m + f ↔ x < (2 : ℚ) ^ m := by
  unfold floorLog2
  split_ifs with h
  · rw [h]
    change (0 : ℤ) ≤ m + f ↔ _
    exact iff_of_true (by omega) (zpow2_pos m)
  · change max (Int.log 2 x + 1 + f) 0 ≤ m + f ↔ _
    have := Int.lt_zpow_iff_log_lt (b := 2) (x := m) (r := x) (by norm_num) (lt_of_le_of_ne hx (Ne.symm h))
    have h2 : x < (2 : ℚ) ^ m ↔ Int.log 2 x < m := by exact_mod_cast this
    rw [h2]
    omega

theorem maskKif_total (k i f : ℤ) : (maskKif k i f).i + (maskKif k i f).f + (maskKif k i f).k = i + (f + k) := by
  unfold maskKif
  dsimp only
  split_ifs with h
  · ring
  · omega

theorem reluBits_ge_zero (i : WithBot ℤ) (f : ℤ) : 0 ≤ reluBits i f := by
  cases i with
  | bot => exact le_refl _
  | coe n => exact le_max_right _ _

/-- **C32**, activations behind a relu: for every recorded range, on the grid or not, the bits counted in training are at least the exact ones. -/
theorem C32_act_bw_relu (mn mx fbw : ℚ) : actBwExact mn mx fbw true ≤ actBw mn mx fbw true := by
  unfold actBwExact actBw bitsExact bitsApprox
  dsimp only
  simp only [if_true]
  rw [maskKif_total]
  generalize (floorLog2 (max mx 0)).map (· + 1) = i
  cases i with
  | bot =>
    change min _ 32 + _ ≤ (0 : ℤ)
    have := min_le_left (-tfRound fbw - 0) 32
    omega
  | coe n =>
    change min (max n _) 32 + _ ≤ max (n + _) 0
    omega

/-- **C32**, activations without relu, exactly: for any recorded range `[mn, mx]`, the bits counted in training are at least the exact ones if and only
if every power of two below `2^32` that is larger than both ends of the range (and not smaller than the step, or half of it for signed ranges) is
also not exceeded by the value one step above `mx`. -/
theorem C32_act_bw_iff (mn mx fbw : ℚ) :
    actBwExact mn mx fbw false ≤ actBw mn mx fbw false ↔
      ∀ m : ℤ, m < 32 → -tfRound fbw - (if mn < 0 then 1 else 0) ≤ m → |mn| < (2 : ℚ) ^ m → |mx| < (2 : ℚ) ^ m →
        |mx + (2 : ℚ) ^ (-tfRound fbw)| ≤ (2 : ℚ) ^ m := by
  unfold actBwExact actBw bitsExact bitsApprox
  dsimp only
  simp only [Bool.false_eq_true, if_false]
  rw [maskKif_total]
  set f := tfRound fbw
  set k : ℤ := if mn < 0 then 1 else 0 with hk
  set E := clipBits (max (ceilLog2 |mn|) (ceilLog2 |mx + p2 (-f)|)) (-f - k) with hE
  set A := reluBits ((floorLog2 (max |mn| |mx|)).map (· + 1)) (f + k) with hA
  have hA0 : 0 ≤ A := reluBits_ge_zero _ _
  have hmax : 0 ≤ max |mn| |mx| := le_max_of_le_left (abs_nonneg _)
  have hEm : ∀ m : ℤ, -f - k ≤ m → (E ≤ m ↔ 32 ≤ m ∨ (|mn| ≤ (2 : ℚ) ^ m ∧ |mx + (2 : ℚ) ^ (-f)| ≤ (2 : ℚ) ^ m)) := by
    intro m hm
    rw [hE, clipBits_le_iff _ hm, max_le_iff, ceilLog2_le_iff (abs_nonneg _), ceilLog2_le_iff (abs_nonneg _)]
    rfl
  have hAm : ∀ m : ℤ, -f - k ≤ m → (A ≤ m + (f + k) ↔ |mn| < (2 : ℚ) ^ m ∧ |mx| < (2 : ℚ) ^ m) := by
    intro m hm
    rw [hA, reluBits_le_iff hmax (by omega), max_lt_iff]
  constructor
  · intro h m h32 hm h1 h2
    have : E ≤ m := by have := (hAm m hm).mpr ⟨h1, h2⟩; omega
    rcases (hEm m hm).mp this with h3 | h3
    · omega
    · exact h3.2
  · intro h
    have hm : -f - k ≤ A - (f + k) := by omega
    obtain ⟨h1, h2⟩ := (hAm _ hm).mp (by omega)
    have : E ≤ A - (f + k) := by
      rw [hEm _ hm]
      by_cases h32 : 32 ≤ A - (f + k)
      · exact .inl h32
      · exact .inr ⟨h1.le, h _ (by omega) hm h1 h2⟩
    omega

/-- **C32** for ranges, on the grid or not, whose lower end reaches as far from zero as the value one step above the upper end. -/
theorem C32_act_bw_negative (mn mx fbw : ℚ) (h : |mx + (2 : ℚ) ^ (-tfRound fbw)| ≤ |mn|) :
    actBwExact mn mx fbw false ≤ actBw mn mx fbw false := by
  rw [C32_act_bw_iff]
  intro m _ _ h1 _
  exact h.trans h1.le

-- range [0, 7/8] recorded with three fractional bits that became two: 7/8 + 1/4 exceeds 1, so training counts 2 bits and the exact count is 3
example : actBw 0 (7 / 8) 2 false = 2 ∧ actBwExact 0 (7 / 8) 2 false = 3 := by constructor <;> decide +kernel

-- with a lower end -9/8 (also off the grid) the count is an upper bound
example : actBwExact (-9 / 8) (7 / 8) 2 false ≤ actBw (-9 / 8) (7 / 8) 2 false :=
  C32_act_bw_negative _ _ _ (by decide +kernel)

theorem actBits_ok {q : QSite} {s : QState} {posOnly : Bool} {bits : List ℤ} (h : q.actBits posOnly s = .ok bits) :
    bits = (List.range (prodL q.outShape)).map fun p =>
      actBwExact ((s.mn (q.elem p)).untopD 0) ((s.mx (q.elem p)).unbotD 0) (s.fbw (q.elem p)) posOnly := by
  unfold QSite.actBits QState.getBitsExact at h
  split_ifs at h with h1
  · exact (Except.ok.inj h).symm
  · cases h

/-- **C76**, inputs, for any recorded ranges (also those of earlier bitwidths): behind a relu no position has fewer bits in the training-time
estimate than in the exact count. -/
theorem C76_input_bits_relu {q : QSite} {s : QState} {bits : List ℤ} (h : q.actBits true s = .ok bits) :
    List.Forall₂ (· ≤ ·) bits (q.actBitsTrain true s) := by
  obtain rfl := actBits_ok h
  unfold QSite.actBitsTrain
  simp only [List.forall₂_map_left_iff, List.forall₂_map_right_iff, List.forall₂_same]
  exact fun p _ => C32_act_bw_relu _ _ _

/-- **C76**, inputs, for any recorded ranges without relu, exactly: no position has fewer bits in the training-time estimate than in the exact
count if and only if at every position the condition of `C32_act_bw_iff` holds for its range and bitwidth. -/
theorem C76_input_bits_iff {q : QSite} {s : QState} {bits : List ℤ} (h : q.actBits false s = .ok bits) (lo hi : ℕ → ℚ)
    (hlo : ∀ p < prodL q.outShape, s.mn (q.elem p) = (lo p : WithTop ℚ)) (hhi : ∀ p < prodL q.outShape, s.mx (q.elem p) = (hi p : WithBot ℚ)) :
    List.Forall₂ (· ≤ ·) bits (q.actBitsTrain false s) ↔
      ∀ p < prodL q.outShape, ∀ m : ℤ, m < 32 → -tfRound (s.fbw (q.elem p)) - (if lo p < 0 then 1 else 0) ≤ m →
        |lo p| < (2 : ℚ) ^ m → |hi p| < (2 : ℚ) ^ m → |hi p + (2 : ℚ) ^ (-tfRound (s.fbw (q.elem p)))| ≤ (2 : ℚ) ^ m := by
  obtain rfl := actBits_ok h
  unfold QSite.actBitsTrain
  simp only [List.forall₂_map_left_iff, List.forall₂_map_right_iff, List.forall₂_same]
  refine forall_congr' fun p => ?_
  rw [List.mem_range]
  refine forall_congr' fun hp => ?_
  rw [hlo p hp, hhi p hp, WithTop.untopD_coe, WithBot.unbotD_coe, C32_act_bw_iff]

/-- a quantizer of one value without clip of the bitwidth, for the example below -/
def staleSite : QSite := ⟨⟨0, true, none, fun _ => 1, 0⟩, [1], [1]⟩

/-- **C76** fails for ranges recorded before the bitwidth changed: a training pass with three fractional bits over the values 0 and 7/8
records them, a step of the optimizer then sets the bitwidth to two. Training counts 2 bits and the exact count is 3. -/
theorem C76_input_bits_stale_fails : ∃ s out,
    staleSite.conf.call staleSite.elem (QState.reset ⟨fun _ => 3, fun _ => ⊤, fun _ => ⊥⟩) (fun _ _ => 0) true true [[0], [7 / 8]] = .ok (s, out) ∧
      staleSite.actBits false { s with fbw := fun _ => 2 } = .ok [3] ∧ staleSite.actBitsTrain false { s with fbw := fun _ => 2 } = [2] :=
  ⟨_, _, rfl, by decide +kernel, by decide +kernel⟩

end HGQ
