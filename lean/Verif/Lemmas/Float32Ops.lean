import Verif.Lemmas.Float32
import Verif.Lemmas.Quantizer

namespace HGQ

open Spec (IsFloat32)

/-- half-integers -/
def Hf (x : ℚ) : Prop := ∃ n : ℤ, x = n / 2

theorem Hf.int (n : ℤ) : Hf n := ⟨2 * n, by push_cast; ring⟩
theorem Hf.half : Hf (1 / 2) := ⟨1, by norm_num⟩
theorem Hf.one : Hf 1 := ⟨2, by norm_num⟩
theorem Hf.zero : Hf 0 := ⟨0, by norm_num⟩
theorem Hf.add {x y : ℚ} (hx : Hf x) (hy : Hf y) : Hf (x + y) := by
  obtain ⟨n, rfl⟩ := hx; obtain ⟨m, rfl⟩ := hy; exact ⟨n + m, by push_cast; ring⟩
theorem Hf.neg {x : ℚ} (hx : Hf x) : Hf (-x) := by
  obtain ⟨n, rfl⟩ := hx; exact ⟨-n, by push_cast; ring⟩
theorem Hf.sub {x y : ℚ} (hx : Hf x) (hy : Hf y) : Hf (x - y) := by
  rw [sub_eq_add_neg]; exact hx.add hy.neg
theorem Hf.mulInt {x : ℚ} (hx : Hf x) (m : ℤ) : Hf (x * m) := by
  obtain ⟨n, rfl⟩ := hx; exact ⟨n * m, by push_cast; ring⟩
theorem Hf.abs {x : ℚ} (hx : Hf x) : Hf |x| := by
  rcases abs_choice x with h | h <;> rw [h]
  · exact hx
  · exact hx.neg
theorem Hf.floorMod {x y : ℚ} (hx : Hf x) (hy : Hf y) : Hf (floorMod x y) := by
  unfold HGQ.floorMod
  refine hx.sub ?_
  rw [mul_comm]; exact hy.mulInt _

theorem fl_half {x : ℚ} (hx : Hf x) (hb : |x| ≤ 2 ^ 23) : fl32 x = x := (isFloat32_half hx hb).fl

theorem floorMod_range {x y : ℚ} (hy : 0 < y) : 0 ≤ floorMod x y ∧ floorMod x y < y := by
  unfold floorMod
  have h1 := Int.floor_le (x / y)
  have h2 := Int.lt_floor_add_one (x / y)
  rw [le_div_iff₀ hy] at h1
  rw [div_lt_iff₀ hy] at h2
  constructor <;> linarith

/-- the overflow modes are exact on small integers if the rounding keeps small half-integers -/
theorem satMapF_eq {fl : ℚ → ℚ} (hfl : ∀ x, Hf x → |x| ≤ 2 ^ 23 → fl x = x) (S : Sat) {r : ℚ} {k b : ℤ} (hr : ∃ n : ℤ, r = n) (hrb : |r| ≤ 2 ^ 22) (hk : k = 0 ∨ k = 1) (hb0 : 0 ≤ b)
    (hb : b ≤ 22) : satMapF fl S r k b = satMap S r k b ∧ Hf (satMap S r k b) ∧ |satMap S r k b| ≤ 2 ^ 23 := by
  obtain ⟨n, rfl⟩ := hr
  have hr := Hf.int n
  generalize (n : ℚ) = r at hr hrb ⊢
  -- the bound 2^(b-k)
  set P := p2 (b - k) with hP
  have hPpos : 0 < P := p2_pos _
  have hPH : Hf P := by
    obtain ⟨z, hz, -⟩ := p2_int_of_nonneg (a := b - k + 1) (by omega)
    rw [p2_succ] at hz
    exact ⟨z, by rw [← hz]; ring⟩
  set M := P * (1 + k) with hM
  have hMP : P ≤ M := by
    rcases hk with rfl | rfl
    · rw [hM]; push_cast; linarith
    · rw [hM]; push_cast; linarith
  have hMb : M ≤ 2 ^ 22 := by
    have : M = p2 b := by
      rcases hk with rfl | rfl
      · rw [hM, hP]; push_cast; rw [sub_zero]; ring
      · rw [hM, hP, show b = b - 1 + 1 by ring, p2_succ]; push_cast; ring_nf
    rw [this]
    refine le_trans (p2_le_p2 hb) ?_
    unfold p2; norm_num
  have hMH : Hf M := by
    have : M = P * ((1 + k : ℤ) : ℚ) := by rw [hM]; push_cast; rfl
    rw [this]; exact hPH.mulInt _
  have hPk : P * k = M - P := by rw [hM]; ring
  have hPk0 : 0 ≤ P * k := by rw [hPk]; linarith
  have hrb' := abs_le.mp hrb
  have hhigh : highF fl k b = P - 1 := by
    unfold highF
    rw [← hP, hfl _ hPH (by rw [abs_of_pos hPpos]; linarith), hfl _ (hPH.sub .one) (by rw [abs_le]; constructor <;> linarith)]
  have hlow : fl (-(fl (P - 1 + 1)) * k) = -(P * k) := by
    rw [sub_add_cancel, hfl _ hPH (by rw [abs_of_pos hPpos]; linarith), neg_mul,
      hfl _ (hPH.mulInt k).neg (by rw [abs_neg, abs_of_nonneg hPk0]; linarith)]
  have hlowm : -(P - 1 + 1) * (k : ℚ) = -(P * k) := by ring
  have hclip : ∀ lo hi : ℚ, Hf lo → Hf hi → |lo| ≤ 2 ^ 23 → |hi| ≤ 2 ^ 23 → Hf (clipByValue r lo hi) ∧ |clipByValue r lo hi| ≤ 2 ^ 23 := by
    intro lo hi h1 h2 h3 h4
    unfold clipByValue
    rcases max_choice (min r hi) lo with h | h <;> rw [h]
    · rcases min_choice r hi with h | h <;> rw [h]
      · exact ⟨hr, by linarith⟩
      · exact ⟨h2, h4⟩
    · exact ⟨h1, h3⟩
  have hb1 : |P - 1| ≤ 2 ^ 23 := by rw [abs_le]; constructor <;> linarith
  have hb2 : |-(P * k)| ≤ 2 ^ 23 := by rw [abs_neg, abs_of_nonneg hPk0]; linarith
  have hH2 : Hf (-(P * k)) := (hPH.mulInt k).neg
  cases S
  · simp only [satMapF, satMap, satSAT, hhigh, hlow, ← hP, hlowm]
    exact ⟨trivial, hclip _ _ hH2 (hPH.sub .one) hb2 hb1⟩
  · simp only [satMapF, satMap, satZERO, hhigh, ← hP]
    have h1 : fl (-(P - 1) - 1) = -P := by
      rw [show -(P - 1) - 1 = -P by ring]
      exact hfl _ hPH.neg (by rw [abs_neg, abs_of_pos hPpos]; linarith)
    have h2 : fl (-P * k) = -(P * k) := by rw [neg_mul]; exact hfl _ hH2 hb2
    have h3 : (-(P - 1) - 1) * (k : ℚ) = -(P * k) := by ring
    rw [h1, h2, h3]
    split_ifs
    · rw [mul_one]
      exact ⟨hfl _ hr (by linarith), hr, by linarith⟩
    · rw [mul_zero]
      exact ⟨(hfl 0 Hf.zero (by norm_num)), Hf.zero, by norm_num⟩
  · simp only [satMapF, satMap, satSYM, hhigh, ← hP]
    have h0 : Hf (-(P - 1) * k) := by rw [neg_mul]; exact ((hPH.sub .one).mulInt k).neg
    have hb0 : |-(P - 1) * (k : ℚ)| ≤ 2 ^ 23 := by
      rcases hk with h | h
      · rw [h]; norm_num
      · rw [h]; push_cast; rw [mul_one, abs_neg]; exact hb1
    rw [hfl _ h0 hb0]
    exact ⟨rfl, hclip _ _ h0 (hPH.sub .one) hb0 hb1⟩
  · simp only [satMapF, satMap, satWRAP, hhigh, hlow, ← hP, hlowm]
    have h1 : fl (r - -(P * k)) = r - -(P * k) := hfl _ (hr.sub hH2) (by rw [abs_le]; constructor <;> linarith)
    have h2 : fl (P - 1 - -(P * k)) = P - 1 - -(P * k) :=
      hfl _ ((hPH.sub .one).sub hH2) (by rw [abs_le]; constructor <;> linarith)
    have h3 : fl (P - 1 - -(P * k) + 1) = P - 1 - -(P * k) + 1 :=
      hfl _ (((hPH.sub .one).sub hH2).add .one) (by rw [abs_le]; constructor <;> linarith)
    rw [h1, h2, h3]
    have h4 : P - 1 - -(P * k) + 1 = M := by rw [hM]; ring
    rw [h4]
    have hfH : Hf (floorMod (r - -(P * k)) M) := (hr.sub hH2).floorMod hMH
    obtain ⟨hf1, hf2⟩ := floorMod_range (x := r - -(P * k)) (y := M) (by linarith)
    rw [hfl _ hfH (by rw [abs_le]; constructor <;> linarith)]
    have hfin : |floorMod (r - -(P * k)) M + -(P * k)| ≤ 2 ^ 23 := by rw [abs_le]; constructor <;> linarith
    exact ⟨hfl _ (hfH.add hH2) hfin, hfH.add hH2, hfin⟩
  · simp only [satMapF, satMap, satWRAPSM, hhigh, hlow, ← hP, hlowm]
    have h2 : fl (P - 1 - -(P * k)) = P - 1 - -(P * k) :=
      hfl _ ((hPH.sub .one).sub hH2) (by rw [abs_le]; constructor <;> linarith)
    have h3 : fl (P - 1 - -(P * k) + 1) = P - 1 - -(P * k) + 1 :=
      hfl _ (((hPH.sub .one).sub hH2).add .one) (by rw [abs_le]; constructor <;> linarith)
    have h4 : P - 1 - -(P * k) + 1 = M := by rw [hM]; ring
    have hM2 : Hf (M * 2) := by exact_mod_cast hMH.mulInt 2
    have h5 : fl (M * 2) = M * 2 := hfl _ hM2 (by rw [abs_le]; constructor <;> linarith)
    rw [h2, h3, h4, h5]
    have h6 : fl (r - (P - 1)) = r - (P - 1) := hfl _ (hr.sub (hPH.sub .one)) (by rw [abs_le]; constructor <;> linarith)
    have h7 : fl (r - (P - 1) - 1) = r - (P - 1) - 1 :=
      hfl _ ((hr.sub (hPH.sub .one)).sub .one) (by rw [abs_le]; constructor <;> linarith)
    rw [h6, h7]
    have hfH : Hf (floorMod (r - (P - 1) - 1) (M * 2)) := ((hr.sub (hPH.sub .one)).sub .one).floorMod hM2
    obtain ⟨hf1, hf2⟩ := floorMod_range (x := r - (P - 1) - 1) (y := M * 2) (by linarith)
    rw [hfl _ hfH (by rw [abs_le]; constructor <;> linarith)]
    generalize floorMod (r - (P - 1) - 1) (M * 2) = g at hfH hf1 hf2
    have h8 : fl (M * 2 / 2) = M := by
      rw [mul_div_assoc, div_self (by norm_num), mul_one]; exact hfl _ hMH (by rw [abs_le]; constructor <;> linarith)
    have h8' : M * 2 / 2 = M := by ring
    have h9 : fl (g - M) = g - M := hfl _ (hfH.sub hMH) (by rw [abs_le]; constructor <;> linarith)
    have h10 : fl (g - M + 1 / 2) = g - M + 1 / 2 := hfl _ ((hfH.sub hMH).add .half) (by rw [abs_le]; constructor <;> linarith)
    rw [h8, h8', h9, h10]
    have hH11 : Hf (|g - M + 1 / 2| - 1 / 2) := (((hfH.sub hMH).add .half).abs).sub .half
    have hb11 : |g - M + 1 / 2| ≤ M + 1 / 2 := by rw [abs_le]; constructor <;> linarith
    have hb12 := abs_nonneg (g - M + 1 / 2)
    have h11 : fl (|g - M + 1 / 2| - 1 / 2) = |g - M + 1 / 2| - 1 / 2 :=
      hfl _ hH11 (by rw [abs_le]; constructor <;> linarith)
    rw [h11]
    have hfin : |(|g - M + 1 / 2| - 1 / 2 + -(P * k))| ≤ 2 ^ 23 := by rw [abs_le]; constructor <;> linarith
    exact ⟨hfl _ (hH11.add hH2) hfin, hH11.add hH2, hfin⟩

/-- the overflow modes are exact on small integers -/
theorem satMap32_eq (S : Sat) {r : ℚ} {k b : ℤ} (hr : ∃ n : ℤ, r = n) (hrb : |r| ≤ 2 ^ 22) (hk : k = 0 ∨ k = 1) (hb0 : 0 ≤ b)
    (hb : b ≤ 22) : satMapF fl32 S r k b = satMap S r k b ∧ Hf (satMap S r k b) ∧ |satMap S r k b| ≤ 2 ^ 23 :=
  satMapF_eq (fun _ => fl_half) S hr hrb hk hb0 hb

/-- the rounding modes are exact on float32 numbers, apart from the numbers just below one half -/
theorem rndMap32_eq (R : Rnd) {s : ℚ} (hs : IsFloat32 s) (hb : |s| < 2 ^ 23) (h1 : R = .RND → s ≠ badHalf)
    (h2 : R = .RND_MIN_INF → s ≠ -badHalf) (h3 : R = .RND_INF → |s| ≠ badHalf) : rndMapF fl32 R s = rndMap R s := by
  have habs : IsFloat32 |s| := by
    rcases abs_choice s with h | h <;> rw [h]
    · exact hs
    · exact hs.neg
  have hsig : ∀ n : ℤ, |n| ≤ 2 ^ 24 → fl32 ((n : ℚ) * tfSign s) = n * tfSign s := by
    intro n hn
    rcases tfSign_cases s with ⟨-, h⟩ | ⟨-, h⟩ | ⟨-, h⟩ <;> rw [h]
    · rw [mul_one]; exact (isFloat32_int n hn).fl
    · rw [show (n : ℚ) * -1 = ((-n : ℤ) : ℚ) by push_cast; ring]; exact (isFloat32_int (-n) (by rwa [abs_neg])).fl
    · rw [mul_zero]; exact fl32_zero
  have hb0 := abs_nonneg s
  cases R
  · rfl
  · show (flr (fl32 (s + 1 / 2)) : ℚ) = flr (s + 1 / 2)
    rw [(halfUp32 hs hb).mpr (h1 rfl)]
  · rfl
  · show fl32 (flr |s| * tfSign s) = flr |s| * tfSign s
    apply hsig
    have h1 : 0 ≤ flr |s| := le_flr.mpr (by simp)
    have h2 : flr |s| < 2 ^ 24 := flr_lt.mpr (by push_cast; linarith)
    rw [abs_of_nonneg h1]; exact h2.le
  · show fl32 (-(flr (fl32 (-|s| + 1 / 2)) : ℚ) * tfSign s) = -(flr (-|s| + 1 / 2) : ℚ) * tfSign s
    rw [(halfUp32 habs.neg (by rw [abs_neg, abs_abs]; exact hb)).mpr (by
      have : (0 : ℚ) < badHalf := by unfold badHalf p2; norm_num
      linarith)]
    have h1 : flr (-|s| + 1 / 2) < 1 := flr_lt.mpr (by push_cast; linarith)
    have h2 : -2 ^ 23 ≤ flr (-|s| + 1 / 2) := le_flr.mpr (by push_cast; linarith)
    have := hsig (-(flr (-|s| + 1 / 2))) (by rw [abs_le]; constructor <;> omega)
    push_cast at this
    exact this
  · show -(flr (fl32 (-s + 1 / 2)) : ℚ) = -(flr (-s + 1 / 2) : ℚ)
    rw [(halfUp32 hs.neg (by rwa [abs_neg])).mpr (fun h => h2 rfl (by linarith))]
  · show fl32 (flr (fl32 (|s| + 1 / 2)) * tfSign s) = flr (|s| + 1 / 2) * tfSign s
    rw [(halfUp32 habs (by rwa [abs_abs])).mpr (h3 rfl)]
    apply hsig
    have h1 : 0 ≤ flr (|s| + 1 / 2) := le_flr.mpr (by push_cast; linarith)
    have h2 : flr (|s| + 1 / 2) < 2 ^ 24 := flr_lt.mpr (by push_cast; linarith)
    rw [abs_of_nonneg h1]; exact h2.le

theorem rndMap_abs_le (R : Rnd) {s : ℚ} (hb : |s| ≤ 2 ^ 22) : |rndMap R s| ≤ 2 ^ 22 := by
  have hb := abs_le.mp hb
  have h1 := rndMap_mono R (x := s) (y := ((2 ^ 22 : ℤ) : ℚ)) (by push_cast; linarith)
  have h2 := rndMap_mono R (x := ((-2 ^ 22 : ℤ) : ℚ)) (y := s) (by push_cast; linarith)
  rw [rndMap_fix] at h1 h2
  push_cast at h1 h2
  rw [abs_le]
  constructor <;> linarith

/-- the straight-through sum `x + (xq - x)` in float32 -/
theorem straightThrough {x : ℚ} {n f : ℤ} (hx : IsFloat32 x) (hn : |n| < 2 ^ 24) (hd : |n * p2 (-f) - x| ≤ p2 (-f)) :
    fl32 (x + fl32 (n * p2 (-f) - x)) = n * p2 (-f) := by
  by_cases h0 : n = 0
  · rw [h0, Int.cast_zero, zero_mul, zero_sub, hx.neg.fl, add_neg_cancel, fl32_zero]
  · set d := (n : ℚ) * p2 (-f) - x with hdd
    have herr : |fl32 d - d| ≤ p2 (-f - 25) := by
      rcases lt_or_eq_of_le hd with h | h
      · exact fl32_error h
      · have : IsFloat32 d := by
          rcases abs_eq (p2_pos _).le |>.mp h with h | h
          · exact ⟨1, -f, by norm_num, by rw [h]; push_cast; rw [one_mul]; rfl⟩
          · exact ⟨-1, -f, by norm_num, by rw [h]; push_cast; rw [neg_one_mul]; rfl⟩
        rw [this.fl, sub_self, abs_zero]
        exact (p2_pos _).le
    have : x + fl32 d = n * p2 (-f) + (fl32 d - d) := by rw [hdd]; ring
    rw [this]
    exact fl32_absorb h0 hn herr

/-- accumulation is exact in any order if the rounding keeps the numbers with at most 24 bits on the grid of the products -/
theorem Acc.runF_exact {fl : ℚ → ℚ} {α : Type} (x w : α → ℚ) (fx fw : ℤ)
    (hfl0 : ∀ y, (∃ n : ℤ, y = n * p2 (-(fx + fw))) → |y| ≤ p2 (-(fx + fw) + 24) → fl y = y) (terms : List α)
    (hx : ∀ a ∈ terms, ∃ n : ℤ, x a = n * (2 : ℚ) ^ (-fx)) (hw : ∀ a ∈ terms, ∃ n : ℤ, w a = n * (2 : ℚ) ^ (-fw))
    (hb : (terms.map fun a => |x a * w a|).sum ≤ 2 ^ 24 * (2 : ℚ) ^ (-(fx + fw)))
    (order : Acc α) (horder : order.terms.Perm terms) :
    order.runF fl x w = (terms.map fun a => x a * w a).sum := by
  have hg : ∀ a ∈ order.terms, ∃ n : ℤ, x a * w a = n * p2 (-(fx + fw)) := by
    intro a ha
    obtain ⟨n, hn⟩ := hx a (horder.subset ha)
    obtain ⟨m, hm⟩ := hw a (horder.subset ha)
    refine ⟨n * m, ?_⟩
    rw [hn, hm, neg_add, p2_add]
    unfold p2
    push_cast; ring
  have hb' : (order.terms.map fun a => |x a * w a|).sum ≤ p2 (-(fx + fw) + 24) := by
    rw [(horder.map _).sum_eq, add_comm, p2_add]
    refine le_trans hb (le_of_eq ?_)
    unfold p2; norm_num
  rw [← (horder.map fun a => x a * w a).sum_eq]
  clear horder hx hw hb
  generalize -(fx + fw) = e at hg hb' hfl0
  have habs : ∀ l : List α, |(l.map fun a => x a * w a).sum| ≤ (l.map fun a => |x a * w a|).sum := by
    intro l
    induction l with
    | nil => simp
    | cons a l ih =>
      simp only [List.map_cons, List.sum_cons]
      exact le_trans (abs_add_le _ _) (by linarith)
  have hnn : ∀ l : List α, 0 ≤ (l.map fun a => |x a * w a|).sum := fun l => le_trans (abs_nonneg _) (habs l)
  have hgs : ∀ l : List α, (∀ a ∈ l, ∃ n : ℤ, x a * w a = n * p2 e) → ∃ n : ℤ, (l.map fun a => x a * w a).sum = n * p2 e := by
    intro l h
    induction l with
    | nil => exact ⟨0, by simp⟩
    | cons a l ih =>
      obtain ⟨n, hn⟩ := h a (by simp)
      obtain ⟨m, hm⟩ := ih fun b hb => h b (by simp [hb])
      exact ⟨n + m, by simp only [List.map_cons, List.sum_cons, hn, hm]; push_cast; ring⟩
  have hfl : ∀ l : List α, (∀ a ∈ l, ∃ n : ℤ, x a * w a = n * p2 e) → (l.map fun a => |x a * w a|).sum ≤ p2 (e + 24) →
      fl (l.map fun a => x a * w a).sum = (l.map fun a => x a * w a).sum :=
    fun l h1 h2 => hfl0 _ (hgs l h1) (le_trans (habs l) h2)
  induction order with
  | zero => rfl
  | mul a =>
    have := hfl [a] hg hb'
    simpa [Acc.runF, Acc.terms] using this
  | add l r ihl ihr =>
    have hsum := hb'
    simp only [Acc.terms, List.map_append, List.sum_append] at hsum
    rw [Acc.runF, ihl (fun a ha => hg a (List.mem_append_left _ ha)) (by linarith [hnn r.terms]),
      ihr (fun a ha => hg a (List.mem_append_right _ ha)) (by linarith [hnn l.terms])]
    have := hfl _ hg hb'
    simp only [Acc.terms, List.map_append, List.sum_append] at this ⊢
    exact this
  | fma a l ih =>
    have hsum := hb'
    simp only [Acc.terms, List.map_cons, List.sum_cons] at hsum
    rw [Acc.runF, ih (fun b hb => hg b (List.mem_cons_of_mem _ hb)) (by linarith [abs_nonneg (x a * w a)])]
    have := hfl _ hg hb'
    simp only [Acc.terms, List.map_cons, List.sum_cons] at this ⊢
    exact this

end HGQ
