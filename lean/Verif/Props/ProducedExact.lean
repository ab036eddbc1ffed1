import Verif.Props.Produced2
import Verif.Lemmas.KeepsSat
import Verif.Spec.Extremes

/-!
C34: exactly when the derived type of a subtraction, an average pooling, a dot product or a linear layer contains every output.
-/

namespace HGQ

open Spec

theorem holds_zero (t : KIF) (hk : 0 ≤ t.k) : t.Holds 0 := by
  have hp := p2_pos t.i
  have hkq : (0 : ℚ) ≤ t.k := by exact_mod_cast hk
  refine ⟨⟨0, by simp⟩, ?_, hp⟩
  change -((t.k : ℚ) * p2 t.i) ≤ 0
  have := mul_nonneg hkq hp.le
  linarith

theorem holds_largest (t : KIF) (hk : 0 ≤ t.k) (hw : 0 ≤ t.i + t.f) : t.Holds (largest t) := by
  have hp := p2_pos t.i
  have hq := p2_pos (-t.f)
  have hkq : (0 : ℚ) ≤ t.k := by exact_mod_cast hk
  have hle : p2 (-t.f) ≤ p2 t.i := p2_le_p2 (by omega)
  obtain ⟨n, hn⟩ := grid_p2 hw
  refine ⟨⟨n - 1, ?_⟩, ?_, ?_⟩
  · change p2 t.i - p2 (-t.f) = ((n - 1 : ℤ) : ℚ) * p2 (-t.f)
    rw [hn]; push_cast; ring
  · change -((t.k : ℚ) * p2 t.i) ≤ p2 t.i - p2 (-t.f)
    have := mul_nonneg hkq hp.le
    linarith
  · change p2 t.i - p2 (-t.f) < p2 t.i
    linarith

theorem holds_smallest (t : KIF) (hk : 0 ≤ t.k) (hw : 0 ≤ t.i + t.f) : t.Holds (smallest t) := by
  have hp := p2_pos t.i
  have hkq : (0 : ℚ) ≤ t.k := by exact_mod_cast hk
  obtain ⟨n, hn⟩ := grid_p2 hw
  refine ⟨⟨-(t.k * n), ?_⟩, le_rfl, ?_⟩
  · change -((t.k : ℚ) * p2 t.i) = ((-(t.k * n) : ℤ) : ℚ) * p2 (-t.f)
    rw [hn]; push_cast; ring
  · change -((t.k : ℚ) * p2 t.i) < p2 t.i
    have := mul_nonneg hkq hp.le
    linarith

theorem holds_bounds {t : KIF} (hw : 0 ≤ t.i + t.f) {x : ℚ} (h : t.Holds x) : smallest t ≤ x ∧ x ≤ largest t :=
  ⟨h.2.1, grid_le_top hw h.1 h.2.2⟩

/-- a type without bits holds 0 only -/
theorem holds_only_zero {t : KIF} (hk : t.k = 0 ∨ t.k = 1) (hw : t.k + t.i + t.f ≤ 0) {x : ℚ} (hx : t.Holds x) : x = 0 := by
  obtain ⟨⟨n, hn⟩, l, u⟩ := hx
  change x = n * p2 (-t.f) at hn
  change -((t.k : ℚ) * p2 t.i) ≤ x at l
  change x < p2 t.i at u
  have hq := p2_pos (-t.f)
  have hn1 : n < 1 := by
    by_contra hc
    have : (1 : ℚ) ≤ n := by exact_mod_cast (not_lt.mp hc)
    have h1 : p2 (-t.f) ≤ n * p2 (-t.f) := by nlinarith
    have h2 : p2 t.i ≤ p2 (-t.f) := p2_le_p2 (by omega)
    linarith
  have hn0 : -1 < n := by
    by_contra hc
    have : (n : ℚ) ≤ -1 := by exact_mod_cast (not_lt.mp hc)
    have h1 : n * p2 (-t.f) ≤ -p2 (-t.f) := by nlinarith
    rcases hk with h | h <;> rw [h] at l <;> push_cast at l
    · linarith
    · have h2 : p2 t.i < p2 (-t.f) := p2_lt_p2 (by omega)
      linarith
  have : n = 0 := by omega
  rw [hn, this]; simp

/-- a type with bits holds plus or minus one unit -/
theorem holds_unit {t : KIF} (hk : t.k = 0 ∨ t.k = 1) (hw : 1 ≤ t.k + t.i + t.f) :
    ∃ s : ℤ, (s = 1 ∨ s = -1) ∧ t.Holds (s * (2 : ℚ) ^ (-t.f)) := by
  have hq := p2_pos (-t.f)
  have hp := p2_pos t.i
  have hkq : (0 : ℚ) ≤ t.k := by rcases hk with h | h <;> rw [h] <;> norm_num
  by_cases h1 : 1 ≤ t.i + t.f
  · refine ⟨1, .inl rfl, ⟨1, by simp⟩, ?_, ?_⟩
    · change -((t.k : ℚ) * p2 t.i) ≤ ((1 : ℤ) : ℚ) * p2 (-t.f)
      have := mul_nonneg hkq hp.le
      push_cast; linarith
    · change ((1 : ℤ) : ℚ) * p2 (-t.f) < p2 t.i
      have : p2 (-t.f) < p2 t.i := p2_lt_p2 (by omega)
      push_cast; linarith
  · have hk1 : t.k = 1 := by omega
    have hle : p2 (-t.f) ≤ p2 t.i := p2_le_p2 (by omega)
    refine ⟨-1, .inr rfl, ⟨-1, by simp⟩, ?_, ?_⟩
    · change -((t.k : ℚ) * p2 t.i) ≤ ((-1 : ℤ) : ℚ) * p2 (-t.f)
      rw [hk1]; push_cast; linarith
    · change ((-1 : ℤ) : ℚ) * p2 (-t.f) < p2 t.i
      push_cast; linarith

/-- **C34**, `Subtract`, exactly: the derived type contains every difference if and only if one of the inputs is signed or the second
input is always 0. -/
theorem C34_subtract_iff (a b : KIF) (hak : a.k = 0 ∨ a.k = 1) (hbk : b.k = 0 ∨ b.k = 1) :
    (∀ x y, a.Holds x → b.Holds y → (addKif [a, b]).Holds (x - y)) ↔ a.k = 1 ∨ b.k = 1 ∨ b.i + b.f ≤ 0 := by
  constructor
  · intro h
    by_contra hc
    push Not at hc
    obtain ⟨h1, h2, h3⟩ := hc
    have ha0 : a.k = 0 := by omega
    have hb0 : b.k = 0 := by omega
    obtain ⟨s, hs, hb⟩ := holds_unit hbk (by omega)
    have hq := p2_pos (-b.f)
    have hs1 : s = 1 := by
      rcases hs with e | e
      · exact e
      · exfalso
        have h := hb.2.1
        rw [hb0, e] at h
        change _ ≤ ((-1 : ℤ) : ℚ) * p2 (-b.f) at h
        push_cast at h
        linarith
    have := (h 0 _ (holds_zero a (by omega)) hb).2.1
    have e : (addKif [a, b]).k = 0 := by
      have : (addKif [a, b]).k = max a.k b.k := rfl
      rw [this, ha0, hb0]; rfl
    rw [e, hs1] at this
    change _ ≤ 0 - ((1 : ℤ) : ℚ) * p2 (-b.f) at this
    push_cast at this
    linarith
  · intro h x y hx hy
    by_cases hs : a.k = 1 ∨ b.k = 1
    · exact C34_subtract_partial a b x y hx hy hak hbk hs
    · have hb0 : b.k = 0 := by omega
      have hy0 : y = 0 := holds_only_zero hbk (by omega) hy
      have := C34_add [a, b] [x, y] (.cons hx (.cons hy .nil)) (by
        intro t ht
        simp only [List.mem_cons, List.not_mem_nil, or_false] at ht
        rcases ht with rfl | rfl <;> omega)
      rw [hy0] at this ⊢
      simpa using this

example : (∀ x y, (⟨0, 3, 2⟩ : KIF).Holds x → (⟨1, 2, 5⟩ : KIF).Holds y → (addKif [⟨0, 3, 2⟩, ⟨1, 2, 5⟩]).Holds (x - y)) ∧
    ¬ ∀ x y, (⟨0, 3, 2⟩ : KIF).Holds x → (⟨0, 2, 5⟩ : KIF).Holds y → (addKif [⟨0, 3, 2⟩, ⟨0, 2, 5⟩]).Holds (x - y) := by
  rw [C34_subtract_iff _ _ (by decide) (by decide), C34_subtract_iff _ _ (by decide) (by decide)]
  decide

/-- **C34**, average pooling, exactly: for windows of `c` of at most `n` values (`n` is the size of the pool; windows at the border of
`same` padding are smaller and Keras divides by the number of values in them) the derived type contains every average if and only
if `c` is a power of two or the input is always 0. -/
theorem C34_avg_pool_iff (t : KIF) (hk : t.k = 0 ∨ t.k = 1) (n c : ℕ) (hc : 1 ≤ c) (hcn : c ≤ n) :
    (∀ w : List ℚ, w.length = c → (∀ x ∈ w, t.Holds x) → (avgPoolKif t n).Holds (w.sum / c)) ↔
      (∃ m : ℕ, c = 2 ^ m) ∨ t.k + t.i + t.f ≤ 0 := by
  have hcq : (0 : ℚ) < c := by exact_mod_cast hc
  constructor
  · intro h
    by_cases hw : t.k + t.i + t.f ≤ 0
    · exact .inr hw
    left
    obtain ⟨s, hs, hu⟩ := holds_unit hk (by omega)
    have hh := h (s * (2 : ℚ) ^ (-t.f) :: List.replicate (c - 1) 0) (by simp; omega) (by
      intro x hx
      rcases List.mem_cons.mp hx with rfl | hx
      · exact hu
      · rw [List.eq_of_mem_replicate hx]; exact holds_zero t (by omega))
    obtain ⟨⟨z, hz⟩, -, -⟩ := hh
    rw [List.sum_cons, List.sum_replicate, smul_zero, add_zero] at hz
    change (s : ℚ) * p2 (-t.f) / c = z * p2 (-(t.f + (Nat.clog 2 n : ℤ))) at hz
    have e : p2 (-(t.f + (Nat.clog 2 n : ℤ))) = p2 (-t.f) / p2 (Nat.clog 2 n : ℤ) := by
      rw [div_p2, ← p2_add]; congr 1; ring
    have hL := p2_pos (Nat.clog 2 n : ℤ)
    have hq := p2_pos (-t.f)
    rw [e, div_eq_iff hcq.ne'] at hz
    have h2 : (s : ℚ) * p2 (Nat.clog 2 n : ℤ) = z * c := by
      have : (s : ℚ) * p2 (-t.f) * p2 (Nat.clog 2 n : ℤ) = z * c * p2 (-t.f) := by
        rw [hz]; field_simp
      have h3 : ((s : ℚ) * p2 (Nat.clog 2 n : ℤ)) * p2 (-t.f) = (z * c) * p2 (-t.f) := by linarith
      exact mul_right_cancel₀ hq.ne' h3
    rw [p2_natCast] at h2
    have h4 : s * 2 ^ Nat.clog 2 n = z * (c : ℤ) := by exact_mod_cast h2
    have hd : (c : ℤ) ∣ 2 ^ Nat.clog 2 n := by
      rcases hs with e | e
      · exact ⟨z, by rw [e] at h4; linarith⟩
      · exact ⟨-z, by rw [e] at h4; linarith⟩
    have hd' : c ∣ 2 ^ Nat.clog 2 n := by exact_mod_cast hd
    obtain ⟨m, -, hm⟩ := (Nat.dvd_prime_pow Nat.prime_two).mp hd'
    exact ⟨m, hm⟩
  · intro h w hl hw
    rcases h with ⟨m, rfl⟩ | h0
    · have := C34_avg_pool_partial t (by omega) m w hl hw
      rw [hl] at this
      refine isKif_mono this (by simp only [avgPoolKif]; omega) le_rfl le_rfl ?_
      have h1 : Nat.clog 2 (2 ^ m) ≤ Nat.clog 2 n := Nat.clog_mono_right 2 hcn
      simp only [avgPoolKif]
      omega
    · have hz : w.sum = 0 := List.sum_eq_zero fun x hx => holds_only_zero hk h0 (hw x hx)
      rw [hz, zero_div]
      exact holds_zero _ (by simp only [avgPoolKif]; omega)

example : ¬ ∀ w : List ℚ, w.length = 6 → (∀ x ∈ w, (⟨1, 2, 3⟩ : KIF).Holds x) → (avgPoolKif ⟨1, 2, 3⟩ 9).Holds (w.sum / (6 : ℕ)) := by
  rw [C34_avg_pool_iff _ (by decide) 9 6 (by decide) (by decide)]
  rintro (⟨m, hm⟩ | h)
  · rcases m with _ | _ | _ | m <;> simp [pow_succ] at hm; omega
  · revert h; decide

/-- the input that contributes most -/
theorem exists_highest (t : KIF) (hk : 0 ≤ t.k) (hw : 0 ≤ t.i + t.f) (w : ℚ) : ∃ x, t.Holds x ∧ x * w = highest t w := by
  unfold highest
  rcases max_choice (smallest t * w) (largest t * w) with e | e <;> rw [e]
  · exact ⟨_, holds_smallest t hk hw, rfl⟩
  · exact ⟨_, holds_largest t hk hw, rfl⟩

theorem exists_lowest (t : KIF) (hk : 0 ≤ t.k) (hw : 0 ≤ t.i + t.f) (w : ℚ) : ∃ x, t.Holds x ∧ x * w = lowest t w := by
  unfold lowest
  rcases min_choice (smallest t * w) (largest t * w) with e | e <;> rw [e]
  · exact ⟨_, holds_smallest t hk hw, rfl⟩
  · exact ⟨_, holds_largest t hk hw, rfl⟩

theorem mul_between {l h x : ℚ} (hl : l ≤ x) (hh : x ≤ h) (w : ℚ) : min (l * w) (h * w) ≤ x * w ∧ x * w ≤ max (l * w) (h * w) := by
  rcases le_total 0 w with hw | hw
  · exact ⟨(min_le_left _ _).trans (mul_le_mul_of_nonneg_right hl hw), (mul_le_mul_of_nonneg_right hh hw).trans (le_max_right _ _)⟩
  · exact ⟨(min_le_right _ _).trans (mul_le_mul_of_nonpos_right hh hw), (mul_le_mul_of_nonpos_right hl hw).trans (le_max_left _ _)⟩

theorem dot_between {t : KIF} (hw : 0 ≤ t.i + t.f) (xs ws : List ℚ) (hl : xs.length = ws.length) (h : ∀ x ∈ xs, t.Holds x) :
    (ws.map (lowest t)).sum ≤ (List.zipWith (· * ·) xs ws).sum ∧
      (List.zipWith (· * ·) xs ws).sum ≤ (ws.map (highest t)).sum := by
  induction xs generalizing ws with
  | nil =>
    cases ws with
    | nil => simp
    | cons => simp at hl
  | cons x xs ih =>
    cases ws with
    | nil => simp at hl
    | cons w ws =>
      obtain ⟨i1, i2⟩ := ih ws (by simpa using hl) fun y hy => h y (by simp [hy])
      obtain ⟨b1, b2⟩ := holds_bounds hw (h x (by simp))
      obtain ⟨m1, m2⟩ := mul_between b1 b2 w
      simp only [List.map_cons, List.sum_cons, List.zipWith_cons_cons]
      exact ⟨add_le_add m1 i1, add_le_add m2 i2⟩

theorem choose_inputs (t : KIF) (g : ℚ → ℚ) (hg : ∀ w, ∃ x, t.Holds x ∧ x * w = g w) (ws : List ℚ) :
    ∃ xs : List ℚ, xs.length = ws.length ∧ (∀ x ∈ xs, t.Holds x) ∧ (List.zipWith (· * ·) xs ws).sum = (ws.map g).sum := by
  induction ws with
  | nil => exact ⟨[], rfl, by simp, rfl⟩
  | cons w ws ih =>
    obtain ⟨xs, h1, h2, h3⟩ := ih
    obtain ⟨x, hx, e⟩ := hg w
    refine ⟨x :: xs, by simp [h1], ?_, by simp [e, h3]⟩
    intro y hy
    rcases List.mem_cons.mp hy with rfl | hy
    · exact hx
    · exact h2 y hy

/-- **C34**, `Dense`/`Conv`, exactly: one output is the sum of the inputs times the weights `ws` of a unit, plus the bias `b`. The derived
type contains it for all inputs if and only if the bias is a multiple of the derived step and the largest and the smallest
output are in the derived range. -/
theorem C34_linear_iff (inp : KIF) (hk : inp.k = 0 ∨ inp.k = 1) (hw : 0 ≤ inp.i + inp.f) (kernel bias : List ℚ) (units : ℕ)
    (ws : List ℚ) (b : ℚ) (hgrid : ∀ w ∈ kernel, ∃ n : ℤ, w = n * (2 : ℚ) ^ (-32 : ℤ)) (hws : ∀ w ∈ ws, w ∈ kernel) :
    (∀ xs : List ℚ, xs.length = ws.length → (∀ x ∈ xs, inp.Holds x) →
        (linearKif inp kernel bias units).Holds ((List.zipWith (· * ·) xs ws).sum + b)) ↔
      (∃ n : ℤ, b = n * (2 : ℚ) ^ (-(linearKif inp kernel bias units).f)) ∧
      -((linearKif inp kernel bias units).k * (2 : ℚ) ^ (linearKif inp kernel bias units).i) ≤ (ws.map (lowest inp)).sum + b ∧
      (ws.map (highest inp)).sum + b < (2 : ℚ) ^ (linearKif inp kernel bias units).i := by
  have hk0 : 0 ≤ inp.k := by omega
  constructor
  · intro h
    obtain ⟨xh, h1, h2, h3⟩ := choose_inputs inp (highest inp) (exists_highest inp hk0 hw) ws
    obtain ⟨xl, l1, l2, l3⟩ := choose_inputs inp (lowest inp) (exists_lowest inp hk0 hw) ws
    obtain ⟨x0, z1, z2, z3⟩ := choose_inputs inp (fun _ => 0) (fun w => ⟨0, holds_zero inp hk0, by simp⟩) ws
    have hz := (h x0 z1 z2).1
    have hl := (h xl l1 l2).2.1
    have hh := (h xh h1 h2).2.2
    rw [h3] at hh
    rw [l3] at hl
    rw [z3] at hz
    refine ⟨?_, hl, hh⟩
    simpa using hz
  · rintro ⟨hb, hl, hh⟩ xs hlen hx
    obtain ⟨b1, b2⟩ := dot_between hw xs ws hlen hx
    refine ⟨grid_add (sum_grid _ _ ?_) hb, by linarith, by linarith⟩
    intro y hy
    obtain ⟨x, w, hx', hw', rfl⟩ : ∃ x w, x ∈ xs ∧ w ∈ ws ∧ y = x * w := by
      rw [← List.map_uncurry_zip_eq_zipWith] at hy
      obtain ⟨p, hp, rfl⟩ := List.mem_map.mp hy
      have := List.of_mem_zip (a := p.1) (b := p.2) hp
      exact ⟨p.1, p.2, this.1, this.2, rfl⟩
    exact mul_grid (hx x hx').1 (C30_sound kernel hgrid w (hws w hw')).1

/-- **C34**, `Dot`, exactly: the derived type contains the product of all vectors of length `n` if and only if it contains `n` times
each product of a largest or smallest value of the one type and a largest or smallest value of the other. -/
theorem C34_dot_iff (a b : KIF) (hak : a.k = 0 ∨ a.k = 1) (hbk : b.k = 0 ∨ b.k = 1) (haw : 0 ≤ a.i + a.f) (hbw : 0 ≤ b.i + b.f) (n : ℕ) :
    (∀ xs ys : List ℚ, xs.length = n → ys.length = n → (∀ x ∈ xs, a.Holds x) → (∀ y ∈ ys, b.Holds y) →
        (dotKif a b).Holds ((List.zipWith (· * ·) xs ys).sum)) ↔
      ∀ x y, (x = smallest a ∨ x = largest a) → (y = smallest b ∨ y = largest b) → (dotKif a b).Holds (n * (x * y)) := by
  constructor
  · intro h x y hx hy
    have hax : a.Holds x := by
      rcases hx with rfl | rfl
      · exact holds_smallest a (by omega) haw
      · exact holds_largest a (by omega) haw
    have hby : b.Holds y := by
      rcases hy with rfl | rfl
      · exact holds_smallest b (by omega) hbw
      · exact holds_largest b (by omega) hbw
    have := h (List.replicate n x) (List.replicate n y) (by simp) (by simp)
      (fun z hz => by rw [List.eq_of_mem_replicate hz]; exact hax) (fun z hz => by rw [List.eq_of_mem_replicate hz]; exact hby)
    rw [List.zipWith_replicate] at this
    simpa [List.sum_replicate] using this
  · intro h xs ys hx hy hxs hys
    have key : ∀ p ∈ List.zipWith (· * ·) xs ys, ∃ x y, a.Holds x ∧ b.Holds y ∧ p = x * y := by
      intro p hp
      rw [← List.map_uncurry_zip_eq_zipWith] at hp
      obtain ⟨q, hq, rfl⟩ := List.mem_map.mp hp
      have := List.of_mem_zip (a := q.1) (b := q.2) hq
      exact ⟨q.1, q.2, hxs _ this.1, hys _ this.2, rfl⟩
    set A := smallest a
    set A' := largest a
    set B := smallest b
    set B' := largest b
    set M := max (max (A * B) (A' * B)) (max (A * B') (A' * B')) with hM
    set m := min (min (A * B) (A' * B)) (min (A * B') (A' * B')) with hm
    have hb : ∀ p ∈ List.zipWith (· * ·) xs ys, m ≤ p ∧ p ≤ M := by
      intro p hp
      obtain ⟨x, y, hx, hy, rfl⟩ := key p hp
      obtain ⟨x1, x2⟩ := holds_bounds haw hx
      obtain ⟨y1, y2⟩ := holds_bounds hbw hy
      obtain ⟨u1, u2⟩ := mul_between y1 y2 x
      obtain ⟨v1, v2⟩ := mul_between x1 x2 B
      obtain ⟨w1, w2⟩ := mul_between x1 x2 B'
      rw [mul_comm y x, mul_comm _ x, mul_comm _ x] at u1 u2
      exact ⟨(min_le_min v1 w1).trans u1, u2.trans (max_le_max v2 w2)⟩
    have hlen : (List.zipWith (· * ·) xs ys).length = n := by simp [hx, hy]
    have hMc : (dotKif a b).Holds (n * M) := by
      rw [hM]
      rcases max_choice (max (A * B) (A' * B)) (max (A * B') (A' * B')) with e | e <;> rw [e]
      · rcases max_choice (A * B) (A' * B) with e | e <;> rw [e]
        · exact h _ _ (.inl rfl) (.inl rfl)
        · exact h _ _ (.inr rfl) (.inl rfl)
      · rcases max_choice (A * B') (A' * B') with e | e <;> rw [e]
        · exact h _ _ (.inl rfl) (.inr rfl)
        · exact h _ _ (.inr rfl) (.inr rfl)
    have hmc : (dotKif a b).Holds (n * m) := by
      rw [hm]
      rcases min_choice (min (A * B) (A' * B)) (min (A * B') (A' * B')) with e | e <;> rw [e]
      · rcases min_choice (A * B) (A' * B) with e | e <;> rw [e]
        · exact h _ _ (.inl rfl) (.inl rfl)
        · exact h _ _ (.inr rfl) (.inl rfl)
      · rcases min_choice (A * B') (A' * B') with e | e <;> rw [e]
        · exact h _ _ (.inl rfl) (.inr rfl)
        · exact h _ _ (.inr rfl) (.inr rfl)
    have s1 := sum_ge _ m fun p hp => (hb p hp).1
    have s2 := sum_le _ M fun p hp => (hb p hp).2
    rw [hlen] at s1 s2
    refine ⟨sum_grid _ _ ?_, hmc.2.1.trans s1, lt_of_le_of_lt s2 hMc.2.2⟩
    intro p hp
    obtain ⟨x, y, hx, hy, rfl⟩ := key p hp
    exact mul_grid hx.1 hy.1

/-- a dense layer with two units: the type derived for 2-bit inputs holds the outputs with bias 1/2 but not with bias 1/16 -/
example : (∀ xs : List ℚ, xs.length = 2 → (∀ x ∈ xs, (⟨0, 1, 1⟩ : KIF).Holds x) →
      (linearKif ⟨0, 1, 1⟩ [1, -1, 3 / 2, 2] [1 / 2, 1 / 16] 2).Holds ((List.zipWith (· * ·) xs [1, 3 / 2]).sum + 1 / 2)) ∧
    ¬ ∀ xs : List ℚ, xs.length = 2 → (∀ x ∈ xs, (⟨0, 1, 1⟩ : KIF).Holds x) →
      (linearKif ⟨0, 1, 1⟩ [1, -1, 3 / 2, 2] [1 / 2, 1 / 16] 2).Holds ((List.zipWith (· * ·) xs [-1, 2]).sum + 1 / 16) := by
  have hg : ∀ w ∈ ([1, -1, 3 / 2, 2] : List ℚ), ∃ n : ℤ, w = n * (2 : ℚ) ^ (-32 : ℤ) := by
    intro w hw
    simp only [List.mem_cons, List.not_mem_nil, or_false] at hw
    rcases hw with rfl | rfl | rfl | rfl
    · exact ⟨2 ^ 32, by norm_num⟩
    · exact ⟨-2 ^ 32, by norm_num⟩
    · exact ⟨3 * 2 ^ 31, by norm_num⟩
    · exact ⟨2 ^ 33, by norm_num⟩
  have e : linearKif ⟨0, 1, 1⟩ [1, -1, 3 / 2, 2] [1 / 2, 1 / 16] 2 = ⟨1, 4, 2⟩ := by decide +kernel
  constructor
  · refine (C34_linear_iff ⟨0, 1, 1⟩ (by decide) (by decide) [1, -1, 3 / 2, 2] [1 / 2, 1 / 16] 2 [1, 3 / 2] (1 / 2) hg (by simp)).mpr ?_
    rw [e]
    exact ⟨⟨2, by norm_num⟩, by decide +kernel, by decide +kernel⟩
  · intro h
    obtain ⟨⟨n, hn⟩, -, -⟩ := (C34_linear_iff ⟨0, 1, 1⟩ (by decide) (by decide) [1, -1, 3 / 2, 2] [1 / 2, 1 / 16] 2 [-1, 2] (1 / 16) hg
      (by simp)).mp h
    rw [e] at hn
    norm_num at hn
    have : (1 : ℚ) = 4 * n := by linarith
    have : (1 : ℤ) = 4 * n := by exact_mod_cast this
    omega

/-- two unsigned two-bit vectors of length 2 overflow the derived type; of length 1 they do not -/
example : (∀ xs ys : List ℚ, xs.length = 1 → ys.length = 1 → (∀ x ∈ xs, (⟨0, 2, 0⟩ : KIF).Holds x) → (∀ y ∈ ys, (⟨0, 2, 0⟩ : KIF).Holds y) →
        (dotKif ⟨0, 2, 0⟩ ⟨0, 2, 0⟩).Holds ((List.zipWith (· * ·) xs ys).sum)) ∧
    ¬ ∀ xs ys : List ℚ, xs.length = 2 → ys.length = 2 → (∀ x ∈ xs, (⟨0, 2, 0⟩ : KIF).Holds x) → (∀ y ∈ ys, (⟨0, 2, 0⟩ : KIF).Holds y) →
        (dotKif ⟨0, 2, 0⟩ ⟨0, 2, 0⟩).Holds ((List.zipWith (· * ·) xs ys).sum) := by
  have eL : largest ⟨0, 2, 0⟩ = 3 := by decide +kernel
  have eS : smallest ⟨0, 2, 0⟩ = 0 := by decide +kernel
  have ed : dotKif ⟨0, 2, 0⟩ ⟨0, 2, 0⟩ = ⟨0, 4, 0⟩ := rfl
  rw [C34_dot_iff _ _ (by decide) (by decide) (by decide) (by decide), C34_dot_iff _ _ (by decide) (by decide) (by decide) (by decide), eL, eS, ed]
  constructor
  · rintro x y (rfl | rfl) (rfl | rfl)
    · exact ⟨⟨0, by norm_num⟩, by norm_num, by norm_num⟩
    · exact ⟨⟨0, by norm_num⟩, by norm_num, by norm_num⟩
    · exact ⟨⟨0, by norm_num⟩, by norm_num, by norm_num⟩
    · exact ⟨⟨9, by norm_num⟩, by norm_num, by norm_num⟩
  · intro h
    have := (h 3 3 (.inr rfl) (.inr rfl)).2.2
    norm_num at this

end HGQ
