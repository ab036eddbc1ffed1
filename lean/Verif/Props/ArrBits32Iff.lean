import Verif.Props.ArrBitsIff
import Verif.Lemmas.Float32
import Verif.Props.BitsFlow

/-!
C31 in float32, exactly: for which arrays of float32 numbers `get_arr_bits` reports the true bits when `arr + 1` is rounded to float32.
-/

namespace HGQ
open Spec (IsFloat32)

theorem isFloat32_twoPow (t : ℤ) : IsFloat32 (p2 t) := ⟨1, t, by norm_num, by rw [Int.cast_one, one_mul]; rfl⟩

theorem fl32_pow_succ {t : ℕ} (ht : 24 ≤ t) : fl32 (p2 t + 1) = p2 t := by
  by_cases h24 : t = 24
  · subst h24
    decide +kernel
  · have h := fl32_absorb_large (n := 2 ^ 23) (f := -((t : ℤ) - 23)) (t := 1) 23 (by norm_num) (by norm_num) (by
      rw [abs_one, ← p2_zero]
      exact p2_le_p2 (by push_cast; omega))
    have e : (((2 : ℤ) ^ 23 : ℤ) : ℚ) * p2 (-(-((t : ℤ) - 23))) = p2 t := by
      have : (((2 : ℤ) ^ 23 : ℤ) : ℚ) = p2 23 := by norm_num [p2]
      rw [this, ← p2_add]
      congr 1
      ring
    rw [e] at h
    exact h

theorem arrBitsN_le (fl : ℚ → ℚ) {arr : List ℚ} {k : ℕ} (h : ∀ a ∈ arr, (Int.clog 2 (fl (a + 1))).toNat ≤ k) : arrBitsN fl arr ≤ k := by
  unfold arrBitsN
  induction arr with
  | nil => exact Nat.zero_le _
  | cons b l ih =>
    rw [List.map_cons, List.foldr_cons]
    exact max_le (h b (by simp)) (ih fun a ha => h a (by simp [ha]))

theorem abs_mul_p2 (a : ℚ) : |a * p2 32| = |a| * p2 32 := by rw [abs_mul, abs_of_pos (p2_pos 32)]

theorem abs_mul_p2_one (a : ℚ) : |a * p2 32| = 1 ↔ |a| = (2 : ℚ) ^ (-32 : ℤ) := by
  rw [abs_mul_p2]
  change _ ↔ |a| = p2 (-32)
  constructor
  · intro h
    rw [← mul_one |a|, ← p2_mul_neg 32, ← mul_assoc, h, one_mul]
  · intro h; rw [h, p2_neg_mul]

theorem arrBits32_le {arr : List ℚ} (hgrid : ∀ a ∈ arr, ∃ n : ℤ, a = n * (2 : ℚ) ^ (-32 : ℤ)) {t : ℕ} (ht24 : 24 ≤ t)
    (hc : ∀ b ∈ arr, |b * p2 32| ≤ p2 t) : arrBitsN fl32 (arr.map fun a => |a * p2 32|) ≤ t := by
  refine arrBitsN_le fl32 fun w hw => ?_
  obtain ⟨b, hb, rfl⟩ := List.mem_map.mp hw
  have hle := hc b hb
  have hup : fl32 (|b * p2 32| + 1) ≤ p2 t := by
    obtain ⟨k, hk⟩ := hgrid b hb
    have hint : |b * p2 32| = ((|k| : ℤ) : ℚ) := by
      change b = k * p2 (-32) at hk
      rw [hk, mul_assoc, p2_neg_mul, mul_one, Int.cast_abs]
    rw [hint, p2_natCast] at hle ⊢
    have hle' : |k| ≤ 2 ^ t := by exact_mod_cast hle
    rcases hle'.eq_or_lt with h1 | h1
    · rw [h1]
      have := fl32_pow_succ ht24
      rw [p2_natCast] at this
      push_cast at this ⊢
      rw [this]
    · have := isFloat32_twoPow t
      rw [p2_natCast] at this
      refine fl32_le_of_le this ?_
      have h2 : |k| + 1 ≤ 2 ^ t := h1
      exact_mod_cast h2
  have hpos : 0 < fl32 (|b * p2 32| + 1) := by
    have h1 : (1 : ℚ) ≤ fl32 (|b * p2 32| + 1) :=
      le_fl32_of_le (by rw [← p2_zero]; exact isFloat32_twoPow 0) (by have := abs_nonneg (b * p2 32); linarith)
    linarith
  have := (le_p2_clog _ hpos).mp hup
  omega

theorem arrBits32_true {arr : List ℚ} (hfl : ∀ a ∈ arr, IsFloat32 a)
    (hgrid : ∀ a ∈ arr, (∃ n : ℤ, a = n * (2 : ℚ) ^ (-32 : ℤ)) ∧ |a| ≠ (2 : ℚ) ^ (-32 : ℤ)) {a : ℚ} (ha : a ∈ arr)
    (hmax : ∀ e : ℤ, -8 ≤ e → |a| = (2 : ℚ) ^ e → ∃ b ∈ arr, |a| < |b|) :
    TrueBits a (arrBitsEntry (arrBitsN fl32 (arr.map fun a => |a * p2 32|)) a) := by
  have habs : ∀ a : ℚ, |a * p2 32| = |a| * p2 32 := abs_mul_p2
  have hone : ∀ a : ℚ, |a * p2 32| = 1 ↔ |a| = (2 : ℚ) ^ (-32 : ℤ) := abs_mul_p2_one
  set n := arrBitsN fl32 (arr.map fun a => |a * p2 32|) with hn
  by_cases h0 : a = 0
  · subst h0
    rw [arrBitsEntry_zero]
    exact ⟨fun _ => rfl, fun h => absurd rfl h⟩
  obtain ⟨hg, hne⟩ := hgrid a ha
  obtain ⟨t, o, ho, hto⟩ := exists_decomp hg h0
  refine arrBitsEntry_true ho hto (fun hc => hne ((hone a).1 (by rw [hto, hc]; norm_num))) ?_
  have key : ∀ b ∈ arr, ∀ y : ℚ, IsFloat32 y → p2 t < y → y ≤ |b * p2 32| + 1 → t ≤ n - 1 := by
    intro b hb y hy hty hyb
    have hN := le_arrBitsN fl32 (List.mem_map.mpr ⟨b, hb, rfl⟩ : |b * p2 32| ∈ arr.map fun a => |a * p2 32|)
    have h1 := lt_of_lt_of_le hty (le_fl32_of_le hy hyb)
    have h2 : ¬ Int.clog 2 (fl32 (|b * p2 32| + 1)) ≤ (t : ℤ) := by
      rw [← le_p2_clog _ (lt_trans (p2_pos _) h1)]
      exact not_le.mpr h1
    omega
  by_cases h1 : o = 1
  · subst h1
    rw [mul_one, ← Nat.cast_ofNat (R := ℕ), Nat.cast_pow] at hto
    have hto' : |a * p2 32| = p2 t := by rw [hto, p2_natCast]; norm_num
    by_cases h24 : 24 ≤ t
    · have hae : |a| = (2 : ℚ) ^ ((t : ℤ) - 32) := by
        change _ = p2 _
        rw [habs] at hto'
        rw [sub_eq_add_neg, p2_add, ← hto', mul_assoc, p2_mul_neg, mul_one]
      obtain ⟨b, hb, hab⟩ := hmax _ (by omega) hae
      have hb32 : IsFloat32 |b * p2 32| := by
        have := (hfl b hb).mul_p2 32
        rcases abs_choice (b * p2 32) with h | h <;> rw [h]
        exacts [this, this.neg]
      refine key b hb _ hb32 ?_ (by linarith)
      rw [← hto', habs, habs]
      exact mul_lt_mul_of_pos_right hab (p2_pos 32)
    · refine key a ha (((2 ^ t + 1 : ℤ)) : ℚ) (isFloat32_int _ ?_) ?_ ?_
      · have h2 : (2 : ℤ) ^ t ≤ 2 ^ 23 := pow_le_pow_right₀ (by norm_num) (by omega)
        rw [abs_of_pos (by positivity)]
        omega
      · rw [p2_natCast]; push_cast; linarith
      · rw [hto', p2_natCast]; push_cast; exact le_refl _
  · have h3 : 2 ≤ o := by have := ho.pos; omega
    have hv : p2 ((t : ℤ) + 1) ≤ |a * p2 32| := by
      rw [hto, show ((t : ℤ) + 1) = ((t + 1 : ℕ) : ℤ) by push_cast; rfl, p2_natCast, pow_succ]
      have : 2 ^ t * 2 ≤ 2 ^ t * o := Nat.mul_le_mul_left _ h3
      exact_mod_cast this
    refine key a ha _ (isFloat32_twoPow ((t : ℤ) + 1)) ?_ (by linarith)
    exact p2_lt_p2 (by omega)

/-- **C31** in float32, exactly: for an array of float32 numbers `get_arr_bits` reports the true sign, highest and lowest bit of all entries if and only if
every entry has at most 32 fractional bits, none is `2^-32` or `-2^-32`, and the largest magnitude in the array is not one of the powers of two
`2^-8, 2^-7, ...`. -/
theorem C31_float32_iff (arr : List ℚ) (hfl : ∀ a ∈ arr, IsFloat32 a) : List.Forall₂ TrueBits arr (getArrBits fl32 arr) ↔
    (∀ a ∈ arr, (∃ n : ℤ, a = n * (2 : ℚ) ^ (-32 : ℤ)) ∧ |a| ≠ (2 : ℚ) ^ (-32 : ℤ)) ∧
      ∀ a ∈ arr, ∀ e : ℤ, -8 ≤ e → |a| = (2 : ℚ) ^ e → ∃ b ∈ arr, |a| < |b| := by
  rw [getArrBits_eq, List.forall₂_map_right_iff, List.forall₂_same]
  have habs : ∀ a : ℚ, |a * p2 32| = |a| * p2 32 := abs_mul_p2
  have hone : ∀ a : ℚ, |a * p2 32| = 1 ↔ |a| = (2 : ℚ) ^ (-32 : ℤ) := abs_mul_p2_one
  set n := arrBitsN fl32 (arr.map fun a => |a * p2 32|) with hn
  constructor
  · intro h
    have hgrid : ∀ a ∈ arr, (∃ n : ℤ, a = n * (2 : ℚ) ^ (-32 : ℤ)) ∧ |a| ≠ (2 : ℚ) ^ (-32 : ℤ) := by
      intro a ha
      by_cases h0 : a = 0
      · subst h0
        exact ⟨⟨0, by simp⟩, by norm_num⟩
      obtain ⟨-, -, ⟨k, -, hk⟩, h4, h5⟩ := (h a ha).2 h0
      refine ⟨grid_mono (f := _) (g := 32) (arrBitsEntry_f_le _ a) ⟨k, hk⟩, fun hc => ?_⟩
      rw [arrBitsEntry_one _ ((hone a).2 hc), hc] at h4
      norm_num at h4
    refine ⟨hgrid, fun a ha e he hae => ?_⟩
    by_contra hc
    push Not at hc
    obtain ⟨t, ht⟩ := Int.eq_ofNat_of_zero_le (show 0 ≤ e + 32 by omega)
    have ht24 : 24 ≤ t := by omega
    have hpt : |a| * p2 32 = p2 t := by
      rw [hae]
      change p2 e * p2 32 = _
      rw [← p2_add, ht]
    have hnt : n ≤ t := arrBits32_le (fun b hb => (hgrid b hb).1) ht24 fun b hb => by
      rw [habs, ← hpt]
      exact mul_le_mul_of_nonneg_right (hc b hb) (p2_pos 32).le
    have ha0 : a ≠ 0 := by
      intro h0
      rw [h0, abs_zero, zero_mul] at hpt
      exact absurd hpt (p2_pos _).ne
    have hv : |a * p2 32| = ((2 ^ t * 1 : ℕ) : ℚ) := by rw [habs, hpt, p2_natCast]; push_cast; ring
    have ht1 : 2 ^ t * 1 ≠ 1 := by
      have : 2 ^ 1 ≤ 2 ^ t := Nat.pow_le_pow_right (by norm_num) (by omega)
      omega
    have hlog : Nat.log 2 (2 ^ t * 1) = t := by rw [mul_one]; exact Nat.log_pow (by norm_num) t
    have htb := (h a ha).2 ha0
    rw [arrBitsEntry_eq odd_one hv ht1 (by rw [hlog]; exact min_le_left _ _)] at htb
    obtain ⟨-, -, ⟨m, hm, hma⟩, -, -⟩ := htb
    dsimp only at hma
    set c := min t (n - 1) with hcdef
    have hct : c < t := by omega
    have h5 : |(m : ℚ)| * p2 (c : ℤ) = p2 (t : ℤ) := by
      change a = m * p2 (-(32 - (c : ℤ))) at hma
      rw [← hpt, hma, abs_mul, abs_of_pos (p2_pos _), mul_assoc, ← p2_add]
      congr 2
      ring
    have h6 : |m| * 2 ^ c = 2 ^ t := by
      rw [p2_natCast, p2_natCast, ← Int.cast_abs] at h5
      exact_mod_cast h5
    obtain ⟨d, hd⟩ := Nat.exists_eq_add_of_lt hct
    have h7 : |m| = 2 ^ (d + 1) := by
      have : (2 : ℤ) ^ t = 2 ^ (d + 1) * 2 ^ c := by rw [hd, ← pow_add]; congr 1; omega
      rw [this] at h6
      exact mul_right_cancel₀ (by positivity) h6
    have h8 : Odd |m| := by rcases abs_choice m with h | h <;> rw [h]; exacts [hm, hm.neg]
    rw [h7, pow_succ] at h8
    exact (Int.not_even_iff_odd.mpr h8) ⟨2 ^ d, by ring⟩
  · rintro ⟨hgrid, hmax⟩ a ha
    exact arrBits32_true hfl hgrid ha (hmax a ha)

-- 1/2 alone is counted wrong, next to 5/8 right
example : ¬ List.Forall₂ TrueBits [(1 / 2 : ℚ)] (getArrBits fl32 [1 / 2]) := by
  rw [C31_float32_iff _ (by intro a ha; rw [List.mem_singleton] at ha; exact ⟨1, -1, by norm_num, by rw [ha]; norm_num⟩)]
  rintro ⟨-, h⟩
  obtain ⟨b, hb, hlt⟩ := h (1 / 2) (by simp) (-1) (by norm_num) (by norm_num [abs_of_pos])
  rw [List.mem_singleton.mp hb] at hlt
  exact lt_irrefl _ hlt

example : getArrBits fl32 [1 / 2, 5 / 8] = [⟨0, 0, 1⟩, ⟨0, 0, 3⟩] := by decide +kernel

/-! ### Bits of the weights of a layer -/

theorem trueBits_unique {a : ℚ} {r r' : KIF} (h : TrueBits a r) (h' : TrueBits a r') : r = r' := by
  by_cases h0 : a = 0
  · rw [h.1 h0, h'.1 h0]
  obtain ⟨k1, k0, ⟨n, hn, hna⟩, i1, i2⟩ := h.2 h0
  obtain ⟨k1', k0', ⟨n', hn', hna'⟩, i1', i2'⟩ := h'.2 h0
  have hk : r.k = r'.k := by
    by_cases hneg : a < 0
    · rw [k1.mpr hneg, k1'.mpr hneg]
    · rw [k0.mpr hneg, k0'.mpr hneg]
  have hlt : ∀ x y : ℤ, (2 : ℚ) ^ (x - 1) < (2 : ℚ) ^ y → x ≤ y := by
    intro x y hxy
    have := (zpow_lt_zpow_iff_right₀ (by norm_num : (1 : ℚ) < 2)).mp hxy
    omega
  have hi : r.i = r'.i := le_antisymm (hlt _ _ (lt_of_le_of_lt i1 i2')) (hlt _ _ (lt_of_le_of_lt i1' i2))
  have hodd : ∀ (m m' f f' : ℤ), Odd m → a = m * (2 : ℚ) ^ (-f) → a = m' * (2 : ℚ) ^ (-f') → f ≤ f' := by
    intro m m' f f' hm hma hma'
    by_contra hc
    obtain ⟨d, hd⟩ := Int.eq_ofNat_of_zero_le (show 0 ≤ f - f' - 1 by omega)
    have h1 : (m : ℚ) = m' * 2 ^ (d + 1) := by
      have hp : (2 : ℚ) ^ (-f') = (2 : ℚ) ^ ((d + 1 : ℕ) : ℤ) * (2 : ℚ) ^ (-f) := by
        rw [← zpow_add₀ (by norm_num)]
        congr 1
        push_cast
        omega
      rw [hma, hp, ← mul_assoc, zpow_natCast] at hma'
      exact mul_right_cancel₀ (zpow2_pos _).ne' hma'
    have h2 : m = m' * 2 ^ (d + 1) := by exact_mod_cast h1
    exact (Int.not_even_iff_odd.mpr hm) ⟨m' * 2 ^ d, by rw [h2]; ring⟩
  have hf : r.f = r'.f := le_antisymm (hodd _ _ _ _ hn hna hna') (hodd _ _ _ _ hn' hna' hna)
  cases r; cases r'
  simp only at hk hi hf
  rw [hk, hi, hf]

/-- **C51** in float32: the bits counted for the weights of a layer in float32 are those of exact arithmetic (`C51_weight_bits`: the digits between the
first and the last 1), and so are the BOPs of the layer, if the quantized weights are float32 numbers with at most 31 fractional bits and the largest
magnitude among them is no power of two from `2^-8` on. -/
theorem C51_float32 (L : LinLayer) (n pf : ℕ) (hf : ∀ j < n, L.kq.clip (L.kfbw j) ≤ 31) (hfl : ∀ j < n, IsFloat32 (L.qkernel j))
    (hmax : ∀ j < n, ∀ e : ℤ, -8 ≤ e → |L.qkernel j| = (2 : ℚ) ^ e → ∃ j' < n, |L.qkernel j| < |L.qkernel j'|) (inBits : Except String (List ℤ)) :
    L.kernelBits fl32 n = L.kernelBits id n ∧
    (Node.linear L).exactBops (.dense n) fl32 inBits = (Node.linear L).exactBops (.dense n) id inBits ∧
    (Node.linear L).exactBops (.conv n pf) fl32 inBits = (Node.linear L).exactBops (.conv n pf) id inBits := by
  have h1 := C31_true_bits_partial _ (kernel_grid L n hf)
  have hgr := (C31_iff _).mp h1
  have h2 := (C31_float32_iff ((List.range n).map L.qkernel) (by
    intro a ha
    obtain ⟨j, hj, rfl⟩ := List.mem_map.mp ha
    exact hfl j (List.mem_range.mp hj))).mpr ⟨hgr, by
      intro a ha e he hae
      obtain ⟨j, hj, rfl⟩ := List.mem_map.mp ha
      obtain ⟨j', hj', hlt⟩ := hmax j (List.mem_range.mp hj) e he hae
      exact ⟨_, List.mem_map.mpr ⟨j', List.mem_range.mpr hj', rfl⟩, hlt⟩⟩
  have hbits : getArrBits fl32 ((List.range n).map L.qkernel) = getArrBits id ((List.range n).map L.qkernel) := by
    rw [getArrBits_eq, List.forall₂_map_right_iff, List.forall₂_same] at h1 h2
    rw [getArrBits_eq, getArrBits_eq]
    exact List.map_congr_left fun a ha => trueBits_unique (h2 a ha) (h1 a ha)
  have hk : L.kernelBits fl32 n = L.kernelBits id n := by
    have e : (List.range n).map L.qkernel = ((List.range n).map fun j => (L.kernel j, L.kq.clip (L.kfbw j))).map
        fun wf => evalQ L.kq.strategy wf.2 wf.1 := by rw [List.map_map]; rfl
    unfold LinLayer.kernelBits getBitsExactRef
    rw [← e, hbits]
  refine ⟨hk, ?_, ?_⟩ <;> simp only [Node.exactBops, hk]

/-! ### Bits of a kernel during training and exact bits in float32 -/

/-- the bits of a nonzero weight `q` on the grid of its quantizer, counted right, are at most those of the training-time estimate -/
theorem reluBits_ge_true {q fbw : ℚ} {r : KIF} (hg : ∃ m : ℤ, q = m * p2 (-tfRound fbw)) (ht : TrueBits q r) :
    (maskKif r.k r.i r.f).i + (maskKif r.k r.i r.f).f ≤ reluBits (bitsApproxRef q fbw).1 (bitsApproxRef q fbw).2.1 := by
  obtain ⟨m, hm⟩ := hg
  unfold bitsApproxRef
  by_cases h0 : q = 0
  · rw [ht.1 h0]
    simp [maskKif, h0, floorLog2]
    rfl
  · obtain ⟨-, -, ⟨o, ho, hoq⟩, h3, h4⟩ := ht.2 h0
    change _ = (o : ℚ) * p2 _ at hoq
    change p2 _ ≤ _ at h3
    change _ < p2 _ at h4
    have hp : 0 < |q| := abs_pos.mpr h0
    have hlog : Int.log 2 |q| = r.i - 1 := by
      have a1 := (p2_le_log _ hp).mp h3
      have a2 := (lt_p2_log _ hp).mp h4
      omega
    have hfr : r.f ≤ tfRound fbw := by
      by_contra hc; push Not at hc
      obtain ⟨e, he⟩ := Int.eq_ofNat_of_zero_le (show 0 ≤ r.f - tfRound fbw - 1 by omega)
      have : (o : ℚ) = ((m * 2 ^ (e + 1) : ℤ) : ℚ) := by
        have h5 : (o : ℚ) * p2 (-r.f) * p2 r.f = m * p2 (-tfRound fbw) * p2 r.f := by rw [← hoq, hm]
        rw [mul_assoc, p2_neg_mul, mul_one, mul_assoc, ← p2_add] at h5
        rw [h5, show -tfRound fbw + r.f = ((e + 1 : ℕ) : ℤ) by push_cast; omega, p2_natCast]
        push_cast; ring
      have h6 : o = m * 2 ^ (e + 1) := by exact_mod_cast this
      rw [h6, pow_succ] at ho
      have : Even (m * (2 ^ e * 2)) := ⟨m * 2 ^ e, by ring⟩
      exact (Int.not_even_iff_odd.mpr ho) this
    have hfl : floorLog2 |q| = ((r.i - 1 : ℤ) : WithBot ℤ) := by
      unfold floorLog2; rw [if_neg hp.ne', hlog]
    rw [hfl]
    show _ ≤ max ((r.i - 1 + 1) + tfRound fbw) 0
    have hle : r.i + r.f ≤ max ((r.i - 1 + 1) + tfRound fbw) 0 := le_max_of_le_left (by omega)
    unfold maskKif
    split_ifs
    · simpa using hle
    · simp

/-- if the largest magnitude is `2^e`, `-8 ≤ e`, float32 counts two bits for it -/
theorem arrBits32_largest {arr : List ℚ} (hgrid : ∀ a ∈ arr, ∃ n : ℤ, a = n * (2 : ℚ) ^ (-32 : ℤ)) {a : ℚ} (ha : a ∈ arr) {e : ℤ} (he : -8 ≤ e)
    (hae : |a| = (2 : ℚ) ^ e) (hc : ∀ b ∈ arr, |b| ≤ |a|) :
    arrBitsEntry (arrBitsN fl32 (arr.map fun a => |a * p2 32|)) a = ⟨if a < 0 then 1 else 0, e + 1, 1 - e⟩ := by
  obtain ⟨t, ht⟩ := Int.eq_ofNat_of_zero_le (show 0 ≤ e + 32 by omega)
  have ht24 : 24 ≤ t := by omega
  have hpt : |a| * p2 32 = p2 t := by
    rw [hae]
    change p2 e * p2 32 = _
    rw [← p2_add, ht]
  have hnt := arrBits32_le hgrid ht24 fun b hb => by
    rw [abs_mul_p2, ← hpt]
    exact mul_le_mul_of_nonneg_right (hc b hb) (p2_pos 32).le
  have hN := le_arrBitsN fl32 (List.mem_map.mpr ⟨a, ha, rfl⟩ : |a * p2 32| ∈ arr.map fun a => |a * p2 32|)
  rw [abs_mul_p2, hpt, fl32_pow_succ ht24] at hN
  have hcl : ¬ Int.clog 2 (p2 t) ≤ (t : ℤ) - 1 := by
    rw [← le_p2_clog _ (p2_pos _)]
    exact not_le.mpr (p2_lt_p2 (by omega))
  have hv : |a * p2 32| = ((2 ^ t * 1 : ℕ) : ℚ) := by rw [abs_mul_p2, hpt, p2_natCast]; push_cast; ring
  have ht1 : 2 ^ t * 1 ≠ 1 := by
    have : 2 ^ 1 ≤ 2 ^ t := Nat.pow_le_pow_right (by norm_num) (by omega)
    omega
  have hlog : Nat.log 2 (2 ^ t * 1) = t := by rw [mul_one]; exact Nat.log_pow (by norm_num) t
  rw [arrBitsEntry_eq odd_one hv ht1 (by rw [hlog]; exact min_le_left _ _), hlog]
  congr 1 <;> omega

/-- **C32** for kernels in float32, exactly: the training-time bits of a kernel bound the bits counted in float32 for every weight if and only if no
weight of the largest magnitude in the kernel is a power of two from `2^-8` on that is also the resolution of its quantizer. -/
theorem C32_kernel_float32_iff (strategy : ℤ) (ws : List (ℚ × ℚ)) (hf : ∀ w ∈ ws, w.2 ≤ 31)
    (hfl : ∀ w ∈ ws, IsFloat32 (evalQ strategy w.2 w.1)) :
    List.Forall₂ (· ≤ ·) (kernelBwExact fl32 strategy ws) (kernelBw strategy ws) ↔
      ∀ w ∈ ws, ∀ e : ℤ, -8 ≤ e → |evalQ strategy w.2 w.1| = (2 : ℚ) ^ e → tfRound w.2 = -e →
        ∃ w' ∈ ws, |evalQ strategy w.2 w.1| < |evalQ strategy w'.2 w'.1| := by
  have hr : ∀ x : ℚ, x ≤ 31 → tfRound x ≤ 31 := by
    intro x hx
    have := (abs_le.mp (tfRound_bounds x)).1
    have h3 : (tfRound x : ℚ) < 32 := by linarith
    have : tfRound x < 32 := by exact_mod_cast h3
    omega
  have hgrid : ∀ a ∈ ws.map (fun wf => evalQ strategy wf.2 wf.1), ∃ n : ℤ, a = n * (2 : ℚ) ^ (-31 : ℤ) := by
    intro a ha
    obtain ⟨w, hw, rfl⟩ := List.mem_map.mp ha
    exact grid_mono (hr _ (hf w hw)) (evalQ_grid _ _ _)
  have hgr := (C31_iff _).mp (C31_true_bits_partial _ hgrid)
  have hfl' : ∀ a ∈ ws.map (fun wf => evalQ strategy wf.2 wf.1), IsFloat32 a := by
    intro a ha
    obtain ⟨w, hw, rfl⟩ := List.mem_map.mp ha
    exact hfl w hw
  have hT := fun a ha => arrBits32_true (a := a) hfl' hgr ha
  have hL := fun a ha e he hae => arrBits32_largest (a := a) (fun b hb => (hgr b hb).1) ha (e := e) he hae
  unfold kernelBwExact kernelBw getBitsExactRef
  rw [getArrBits_eq]
  generalize arrBitsN fl32 _ = n at hT hL ⊢
  simp only [List.map_map, List.forall₂_map_right_iff, List.forall₂_map_left_iff, List.forall₂_same, Function.comp_apply]
  refine forall₂_congr fun w hw => ?_
  have hmem : evalQ strategy w.2 w.1 ∈ ws.map (fun wf => evalQ strategy wf.2 wf.1) := List.mem_map.mpr ⟨w, hw, rfl⟩
  have hg := evalQ_grid strategy w.2 w.1
  have hT' := hT _ hmem
  have hL' := hL _ hmem
  by_cases hbad : ∃ e : ℤ, -8 ≤ e ∧ |evalQ strategy w.2 w.1| = (2 : ℚ) ^ e ∧
      ∀ w' ∈ ws, |evalQ strategy w'.2 w'.1| ≤ |evalQ strategy w.2 w.1|
  · obtain ⟨e, he, hae, hle⟩ := hbad
    rw [hL' e he hae (by
      intro b hb
      obtain ⟨w', hw', rfl⟩ := List.mem_map.mp hb
      exact hle w' hw')]
    have h2 : (maskKif (if evalQ strategy w.2 w.1 < 0 then 1 else 0) (e + 1) (1 - e)).i +
        (maskKif (if evalQ strategy w.2 w.1 < 0 then 1 else 0) (e + 1) (1 - e)).f = 2 := by
      unfold maskKif
      split_ifs <;> dsimp only <;> omega
    have h3 : reluBits (bitsApproxRef (evalQ strategy w.2 w.1) w.2).1 (bitsApproxRef (evalQ strategy w.2 w.1) w.2).2.1 =
        max (e + 1 + tfRound w.2) 0 := by
      have hp : (0 : ℚ) < (2 : ℚ) ^ e := zpow2_pos e
      have hfl2 : floorLog2 ((2 : ℚ) ^ e) = ((e : ℤ) : WithBot ℤ) := by
        unfold floorLog2; rw [if_neg hp.ne']
        congr 1
        exact Int.log_zpow (R := ℚ) (by norm_num) e
      unfold bitsApproxRef
      rw [hae, hfl2]
      rfl
    have h4 : -e ≤ tfRound w.2 := by
      obtain ⟨m, hm⟩ := hg
      by_contra hc
      have h5 : |(m : ℚ)| * p2 (-tfRound w.2) = p2 e := by
        change _ = (2 : ℚ) ^ e
        rw [← hae, hm, abs_mul]
        change _ = _ * |p2 _|
        rw [abs_of_pos (p2_pos _)]
      have h6 : p2 e < p2 (-tfRound w.2) := p2_lt_p2 (by omega)
      have hm0 : m ≠ 0 := by
        rintro rfl
        rw [Int.cast_zero, abs_zero, zero_mul] at h5
        exact absurd h5 (p2_pos _).ne
      have h7 : (1 : ℚ) ≤ |(m : ℚ)| := by
        have := Int.one_le_abs hm0
        exact_mod_cast this
      have := mul_le_mul_of_nonneg_right h7 (p2_pos (-tfRound w.2)).le
      linarith
    change _ + _ ≤ reluBits (bitsApproxRef (evalQ strategy w.2 w.1) w.2).1 (bitsApproxRef (evalQ strategy w.2 w.1) w.2).2.1 ↔ _
    rw [h3]
    dsimp only
    rw [h2]
    constructor
    · intro h e' he' hae' hf'
      have : e' = e := by
        rw [hae] at hae'
        exact (zpow_right_injective₀ (by norm_num : (0 : ℚ) < 2) (by norm_num) hae').symm
      omega
    · intro h
      by_contra hc
      obtain ⟨w', hw', hlt⟩ := h e he hae (by omega)
      exact absurd (hle w' hw') (not_le.mpr hlt)
  · have hgood : ∀ e : ℤ, -8 ≤ e → |evalQ strategy w.2 w.1| = (2 : ℚ) ^ e → ∃ w' ∈ ws, |evalQ strategy w.2 w.1| < |evalQ strategy w'.2 w'.1| := by
      intro e he hae
      by_contra hc
      push Not at hc
      exact hbad ⟨e, he, hae, hc⟩
    refine ⟨fun _ e he hae _ => hgood e he hae, fun _ => reluBits_ge_true hg (hT' fun e he hae => ?_)⟩
    obtain ⟨w', hw', hlt⟩ := hgood e he hae
    exact ⟨_, List.mem_map.mpr ⟨w', hw', rfl⟩, hlt⟩

-- 1/2 with one fractional bit: alone it fails, with two fractional bits or next to 3/4 it holds
example : kernelBwExact fl32 0 [(1 / 2, 1)] = [2] ∧ kernelBw 0 [(1 / 2, 1)] = [1] ∧ kernelBwExact fl32 0 [(1 / 2, 2)] = [2] ∧ kernelBw 0 [(1 / 2, 2)] = [2] ∧
    kernelBwExact fl32 0 [(1 / 2, 1), (3 / 4, 2)] = [1, 2] ∧ kernelBw 0 [(1 / 2, 1), (3 / 4, 2)] = [1, 2] := by decide +kernel
example : (∀ w ∈ [((1 / 2 : ℚ), (1 : ℚ))], w.2 ≤ 31) ∧ ∀ w ∈ [((1 / 2 : ℚ), (1 : ℚ))], IsFloat32 (evalQ 0 w.2 w.1) := by
  constructor <;> intro w hw <;> rw [List.mem_singleton.mp hw]
  · norm_num
  · exact ⟨1, -1, by norm_num, by decide +kernel⟩

theorem kernelBits32_le (L : LinLayer) (n : ℕ) (hf : ∀ j < n, L.kq.clip (L.kfbw j) ≤ 31) (hfl : ∀ j < n, IsFloat32 (L.qkernel j))
    (hmax : ∀ j < n, ∀ e : ℤ, -8 ≤ e → |L.qkernel j| = (2 : ℚ) ^ e → tfRound (L.kq.clip (L.kfbw j)) = -e →
      ∃ j' < n, |L.qkernel j| < |L.qkernel j'|) : List.Forall₂ (· ≤ ·) (L.kernelBits fl32 n) (L.kernelBitsTrain n) := by
  have e : kernelBw L.kq.strategy ((List.range n).map fun j => (L.kernel j, L.kq.clip (L.kfbw j))) = L.kernelBitsTrain n := by
    unfold kernelBw LinLayer.kernelBitsTrain
    rw [List.map_map]
    rfl
  rw [← e]
  refine (C32_kernel_float32_iff L.kq.strategy _ ?_ ?_).mpr ?_
  · intro w hw
    obtain ⟨j, hj, rfl⟩ := List.mem_map.mp hw
    exact hf j (List.mem_range.mp hj)
  · intro w hw
    obtain ⟨j, hj, rfl⟩ := List.mem_map.mp hw
    exact hfl j (List.mem_range.mp hj)
  · intro w hw e he hae hfe
    obtain ⟨j, hj, rfl⟩ := List.mem_map.mp hw
    obtain ⟨j', hj', hlt⟩ := hmax j (List.mem_range.mp hj) e he hae hfe
    exact ⟨_, List.mem_map.mpr ⟨j', List.mem_range.mpr hj', rfl⟩, hlt⟩

/-- **C76** in float32: for the same weights and recorded ranges the BOPs shown during training are at least the BOPs counted with the float32 weight
bits, if no weight of the largest magnitude in the kernel is a power of two from `2^-8` on that is also the resolution of its quantizer. Missing: kernels
with such a weight, for which it can fail (`C32_float32_underestimates`, `C32_kernel_float32_iff`). -/
theorem C76_float32_partial (L : LinLayer) (n pf : ℕ) (inBits inBw : List ℤ) (hin : ∀ b ∈ inBits, 0 ≤ b)
    (hi : List.Forall₂ (· ≤ ·) inBits inBw) (hf : ∀ j < n, L.kq.clip (L.kfbw j) ≤ 31) (hfl : ∀ j < n, IsFloat32 (L.qkernel j))
    (hmax : ∀ j < n, ∀ e : ℤ, -8 ≤ e → |L.qkernel j| = (2 : ℚ) ^ e → tfRound (L.kq.clip (L.kfbw j)) = -e →
      ∃ j' < n, |L.qkernel j| < |L.qkernel j'|) (rule : BopsRule) (hrule : rule = .dense n ∨ rule = .conv n pf) :
    ∃ b, (Node.linear L).exactBops rule fl32 (.ok inBits) = .ok b ∧ b ≤ (Node.linear L).trainBops rule inBw := by
  have hk := kernelBits32_le L n hf hfl hmax
  have h0 : L.mulBits inBits (L.kernelBits fl32 n) ≤ L.mulBits inBw (L.kernelBitsTrain n) := by
    rw [mulBits_eq, mulBits_eq]
    refine Finset.sum_le_sum fun p _ => ?_
    exact tapSum_mono (L.taps p) (getD_nonneg hin) (kernelBits_nonneg L fl32 n hf) (getD_le hi) (getD_le hk)
  have h1 : (L.mulBits inBits (L.kernelBits fl32 n) : ℚ) ≤ L.mulBits inBw (L.kernelBitsTrain n) := by exact_mod_cast h0
  rcases hrule with rfl | rfl
  · exact ⟨_, rfl, h1⟩
  · refine ⟨_, rfl, ?_⟩
    exact div_le_div_of_nonneg_right (mul_le_mul_of_nonneg_right h1 (Nat.cast_nonneg _)) (Nat.cast_nonneg _)

/-- weights `1, -3/2, 1/2, 1` -/
theorem exDense_float32 : (∀ j < 4, (exDense 0 [2] true).kq.clip ((exDense 0 [2] true).kfbw j) ≤ 31) ∧
    (∀ j < 4, IsFloat32 ((exDense 0 [2] true).qkernel j)) ∧
    (∀ j < 4, ∀ e : ℤ, -8 ≤ e → |(exDense 0 [2] true).qkernel j| = (2 : ℚ) ^ e →
      ∃ j' < 4, |(exDense 0 [2] true).qkernel j| < |(exDense 0 [2] true).qkernel j'|) := by
  have hv : (exDense 0 [2] true).qkernel 0 = 1 ∧ (exDense 0 [2] true).qkernel 1 = -3 / 2 ∧ (exDense 0 [2] true).qkernel 2 = 1 / 2 ∧
      (exDense 0 [2] true).qkernel 3 = 1 := by decide +kernel
  obtain ⟨h0, h1, h2, h3⟩ := hv
  refine ⟨by decide +kernel, fun j hj => ?_, fun j hj e _ he => ?_⟩
  · rcases (show j = 0 ∨ j = 1 ∨ j = 2 ∨ j = 3 by omega) with rfl | rfl | rfl | rfl
    · exact ⟨1, 0, by norm_num, by rw [h0]; norm_num⟩
    · exact ⟨-3, -1, by norm_num, by rw [h1]; norm_num⟩
    · exact ⟨1, -1, by norm_num, by rw [h2]; norm_num⟩
    · exact ⟨1, 0, by norm_num, by rw [h3]; norm_num⟩
  · rcases (show j = 0 ∨ j = 1 ∨ j = 2 ∨ j = 3 by omega) with rfl | rfl | rfl | rfl
    · exact ⟨1, by norm_num, by rw [h0, h1]; norm_num [abs_of_neg]⟩
    · rw [h1] at he
      exfalso
      have h32 : |(-3 / 2 : ℚ)| = 3 / 2 := by norm_num [abs_of_neg]
      rw [h32] at he
      have hlt : (2 : ℚ) ^ (0 : ℤ) < (2 : ℚ) ^ e := by rw [← he]; norm_num
      have hgt : (2 : ℚ) ^ e < (2 : ℚ) ^ (1 : ℤ) := by rw [← he]; norm_num
      have a1 := (zpow_lt_zpow_iff_right₀ (by norm_num : (1 : ℚ) < 2)).mp hlt
      have a2 := (zpow_lt_zpow_iff_right₀ (by norm_num : (1 : ℚ) < 2)).mp hgt
      omega
    · exact ⟨1, by norm_num, by rw [h2, h1]; norm_num [abs_of_neg]⟩
    · exact ⟨1, by norm_num, by rw [h3, h1]; norm_num [abs_of_neg]⟩

example : (exDense 0 [2] true).kernelBits fl32 4 = [1, 2, 1, 1] ∧ (exDense 0 [2] true).kernelBitsTrain 4 = [4, 4, 3, 4] := by decide +kernel
example (inBits : Except String (List ℤ)) : (exDense 0 [2] true).kernelBits fl32 4 = (exDense 0 [2] true).kernelBits id 4 :=
  (C51_float32 _ 4 1 exDense_float32.1 exDense_float32.2.1 exDense_float32.2.2 inBits).1

end HGQ
