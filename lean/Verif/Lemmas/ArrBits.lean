import Verif.Lemmas.Container
import Mathlib.Algebra.Ring.Parity
import Mathlib.Algebra.Order.Ring.Int
import Mathlib.Data.Nat.Factorization.Basic

namespace HGQ

theorem filter_le_length (t k : ℕ) : ((List.range' 1 k).filter fun j => decide (j ≤ t)).length = min t k := by
  induction k with
  | zero => simp
  | succ k ih =>
    rw [List.range'_concat, List.filter_append, List.length_append, ih]
    simp only [one_mul]
    by_cases h : 1 + k ≤ t
    · simp [h]; omega
    · simp [h]; omega

theorem two_pow_dvd_iff {t o j : ℕ} (ho : Odd o) : 2 ^ j ∣ 2 ^ t * o ↔ j ≤ t := by
  constructor
  · intro h
    have hc : Nat.Coprime (2 ^ j) o := Nat.Coprime.pow_left j (Nat.coprime_two_left.mpr ho)
    have := hc.dvd_of_dvd_mul_right h
    exact (Nat.pow_dvd_pow_iff_le_right (by norm_num)).mp this
  · intro h; exact Dvd.dvd.mul_right (pow_dvd_pow 2 h) o

theorem floorMod_two_pow (m j : ℕ) : floorMod (m : ℚ) (p2 j) = 0 ↔ 2 ^ j ∣ m := by
  rw [p2_natCast]
  have h := floorMod_int (m : ℤ) (2 ^ j) (by positivity)
  push_cast at h ⊢
  rw [h]
  have h2 : ((m : ℤ) % 2 ^ j = 0) ↔ 2 ^ j ∣ m := by
    rw [← Int.dvd_iff_emod_eq_zero]
    exact_mod_cast Int.natCast_dvd_natCast
  rw [← h2]
  norm_cast

theorem countDiv_eq {t o n : ℕ} (ho : Odd o) : countDiv ((2 ^ t * o : ℕ) : ℚ) n = min t (n - 1) := by
  unfold countDiv
  rw [← filter_le_length]
  congr 1
  apply List.filter_congr
  intro j _
  rw [decide_eq_decide, floorMod_two_pow, two_pow_dvd_iff ho]

theorem countDiv_zero (n : ℕ) : countDiv 0 n = n - 1 := by
  have : countDiv 0 n = ((List.range' 1 (n - 1)).filter fun _ => true).length := by
    unfold countDiv; congr 1; apply List.filter_congr; intro j _; unfold floorMod; simp
  rw [this]; simp

theorem le_arrBitsN (fl : ℚ → ℚ) {arr : List ℚ} {a : ℚ} (h : a ∈ arr) :
    (Int.clog 2 (fl (a + 1))).toNat ≤ arrBitsN fl arr := by
  unfold arrBitsN
  induction arr with
  | nil => simp at h
  | cons b t ih =>
    rw [List.map_cons, List.foldr_cons]
    rcases List.mem_cons.mp h with rfl | h
    · exact le_max_left _ _
    · exact le_max_of_le_right (ih h)

theorem log_natCast (m : ℕ) : Int.log 2 (m : ℚ) = Nat.log 2 m := Int.log_natCast 2 m

/-- value of `getArrBits` on one entry, given the divisor count -/
def arrBitsEntry (n : ℕ) (a : ℚ) : KIF :=
  let kn : ℤ := if a < 0 then 1 else 0
  let v := |a * p2 32|
  let lowPos : ℤ := countDiv v n + (if v = 1 then 1 else 0)
  let highPos : ℤ := if v ≠ 0 then Int.log 2 v + 1 else lowPos
  let fb := 32 - lowPos
  let intBits := highPos - lowPos - fb
  if intBits + fb = 0 then ⟨kn, 0, 0⟩ else ⟨kn, intBits, fb⟩

theorem getArrBits_eq (fl : ℚ → ℚ) (arr : List ℚ) :
    getArrBits fl arr = arr.map (arrBitsEntry (arrBitsN fl (arr.map fun a => |a * p2 32|))) := rfl

theorem arrBitsEntry_zero (n : ℕ) : arrBitsEntry n 0 = ⟨0, 0, 0⟩ := by
  unfold arrBitsEntry
  simp

/-- the general entry: `|a| = odd * 2^(t-32)` -/
theorem arrBitsEntry_eq {a : ℚ} {t o n : ℕ} (ho : Odd o) (ha : |a * p2 32| = ((2 ^ t * o : ℕ) : ℚ))
    (h1 : 2 ^ t * o ≠ 1) (hn : min t (n - 1) ≤ Nat.log 2 (2 ^ t * o)) :
    arrBitsEntry n a = ⟨if a < 0 then 1 else 0, Nat.log 2 (2 ^ t * o) + 1 - 32, 32 - (min t (n - 1) : ℕ)⟩ := by
  have hpos : 2 ^ t * o ≠ 0 := by
    have := ho.pos; positivity
  have hv1 : ((2 ^ t * o : ℕ) : ℚ) ≠ 1 := by exact_mod_cast h1
  have hv0 : ((2 ^ t * o : ℕ) : ℚ) ≠ 0 := by exact_mod_cast hpos
  unfold arrBitsEntry
  dsimp only
  rw [ha, countDiv_eq ho, if_neg hv1, if_pos hv0, log_natCast]
  have hne : ((Nat.log 2 (2 ^ t * o) : ℤ) + 1 - ((min t (n - 1) : ℕ) + 0) - (32 - ((min t (n - 1) : ℕ) + 0))
      + (32 - ((min t (n - 1) : ℕ) + 0))) ≠ 0 := by omega
  rw [if_neg hne]
  congr 1; omega

theorem exists_decomp {a : ℚ} (h : ∃ n : ℤ, a = n * p2 (-32)) (h0 : a ≠ 0) :
    ∃ t o : ℕ, Odd o ∧ |a * p2 32| = ((2 ^ t * o : ℕ) : ℚ) := by
  obtain ⟨n, rfl⟩ := h
  have hn : n.natAbs ≠ 0 := by
    intro hc
    have : n = 0 := by omega
    rw [this] at h0; simp at h0
  obtain ⟨t, o, ho, hto⟩ := Nat.exists_eq_two_pow_mul_odd hn
  refine ⟨t, o, ho, ?_⟩
  rw [mul_assoc, p2_neg_mul, mul_one, ← hto, Nat.cast_natAbs]
  push_cast; rfl

theorem t_le_log {t o : ℕ} (ho : Odd o) : t ≤ Nat.log 2 (2 ^ t * o) := by
  have hpos : 2 ^ t * o ≠ 0 := by have := ho.pos; positivity
  apply Nat.le_log_of_pow_le (by norm_num)
  exact Nat.le_mul_of_pos_right _ ho.pos

end HGQ
