import Verif.Props.BitsPermute

/-!
C75 for pooling, exactly: when the bits the pooling layers report describe the pooled values.
-/

namespace HGQ
open Spec

theorem kif_lo_mem {b : KIF} (hk : b.k = 0 ∨ b.k = 1) (hw : 0 < b.width) : IsKif b.k b.i b.f (-(b.k * (2 : ℚ) ^ b.i)) := by
  have hi := zpow2_pos b.i
  refine ⟨?_, le_rfl, by rcases hk with h | h <;> rw [h] <;> push_cast <;> linarith⟩
  unfold KIF.width at hw
  rcases hk with h | h
  · exact ⟨0, by rw [h]; simp⟩
  · refine ⟨-2 ^ (b.i + b.f).toNat, ?_⟩
    rw [h]
    push_cast
    rw [one_mul, ← zpow_natCast, Int.toNat_of_nonneg (by omega), neg_mul, ← zpow_add₀ (by norm_num)]
    congr 2
    ring

theorem kif_hi_mem {b : KIF} (hk : b.k = 0 ∨ b.k = 1) (hw : 0 < b.width) : IsKif b.k b.i b.f ((2 : ℚ) ^ b.i - (2 : ℚ) ^ (-b.f)) := by
  have hi := zpow2_pos b.i
  have hu := zpow2_pos (-b.f)
  unfold KIF.width at hw
  refine ⟨⟨2 ^ (b.i + b.f).toNat - 1, ?_⟩, ?_, by linarith⟩
  · push_cast
    rw [← zpow_natCast, Int.toNat_of_nonneg (by omega), sub_mul, one_mul, ← zpow_add₀ (by norm_num)]
    congr 2
    ring
  · have : (2 : ℚ) ^ (-b.f) ≤ (1 + b.k) * (2 : ℚ) ^ b.i := by
      rcases hk with h | h
      · rw [h]; push_cast
        have : (2 : ℚ) ^ (-b.f) ≤ (2 : ℚ) ^ b.i := zpow_le_zpow_right₀ (by norm_num) (by omega)
        linarith
      · rw [h]; push_cast
        have : (2 : ℚ) ^ (-b.f) ≤ (2 : ℚ) ^ b.i := zpow_le_zpow_right₀ (by norm_num) (by omega)
        linarith
    linarith

/-- a type with bits contains its unit, with one of the signs -/
theorem kif_unit_mem {b : KIF} (hk : b.k = 0 ∨ b.k = 1) (hw : 0 < b.width) :
    IsKif b.k b.i b.f ((2 : ℚ) ^ (-b.f)) ∨ IsKif b.k b.i b.f (-(2 : ℚ) ^ (-b.f)) := by
  have hi := zpow2_pos b.i
  have hu := zpow2_pos (-b.f)
  unfold KIF.width at hw
  rcases hk with h | h
  · left
    exact ⟨⟨1, by push_cast; ring⟩, by rw [h]; push_cast; linarith, zpow_lt_zpow_right₀ (by norm_num) (by omega)⟩
  · right
    refine ⟨⟨-1, by push_cast; ring⟩, ?_, by linarith⟩
    rw [h]
    have : (2 : ℚ) ^ (-b.f) ≤ (2 : ℚ) ^ b.i := zpow_le_zpow_right₀ (by norm_num) (by omega)
    push_cast
    linarith

/-- a type that contains all values of another with the same number of bits is the same type -/
theorem kif_width_eq {b b' : KIF} (hk : b.k = 0 ∨ b.k = 1) (hk' : b'.k = 0 ∨ b'.k = 1) (hw : 0 < b.width) (he : b'.width = b.width)
    (h : ∀ v, IsKif b.k b.i b.f v → IsKif b'.k b'.i b'.f v) : b' = b := by
  obtain ⟨P, d, hP1, hd, hP, hu, hspan⟩ := kif_units hk hk' hw h
  have h2P : (2 : ℚ) ^ b'.width = 2 * P := by
    rw [he, hP, show b.width = (b.width - 1) + 1 by ring, zpow_add₀ (by norm_num)]
    ring_nf
  rw [h2P] at hspan
  have hsp : (2 * P - 1) * d < 2 * P := by exact_mod_cast hspan
  have hd1 : d = 1 := by
    by_contra hc
    have : 2 ≤ d := by omega
    nlinarith
  rw [hd1, Int.cast_one, one_mul] at hu
  have hf : b'.f = b.f := by
    have := zpow_right_injective₀ (a := (2 : ℚ)) (by norm_num) (by norm_num) hu
    omega
  have hlo := (h _ (kif_lo_mem hk hw)).2.1
  have hhi := (h _ (kif_hi_mem hk hw)).2.2
  have hi := zpow2_pos b.i
  unfold KIF.width at he hw
  have hkk : b'.k = b.k := by
    rcases hk with h1 | h1 <;> rcases hk' with h2 | h2
    · rw [h1, h2]
    · exfalso
      rw [h1] at hw
      rw [h1, h2, hf] at he
      rw [show b'.i = b.i - 1 by omega] at hhi
      have e : (2 : ℚ) ^ b.i = 2 * (2 : ℚ) ^ (b.i - 1) := by
        rw [show b.i = (b.i - 1) + 1 by ring, zpow_add₀ (by norm_num)]; ring_nf
      have : (2 : ℚ) ^ (-b.f) ≤ (2 : ℚ) ^ (b.i - 1) := zpow_le_zpow_right₀ (by norm_num) (by omega)
      linarith
    · exfalso
      rw [h1, h2] at hlo
      push_cast at hlo
      linarith
    · rw [h1, h2]
  obtain ⟨k, i, f⟩ := b
  obtain ⟨k', i', f'⟩ := b'
  dsimp only at hf hkk he
  subst hf hkk
  congr 1
  omega

/-- values computed position by position are described position by position -/
theorem describes_pointwise {F : List KIF} (n : ℕ) (bits : ℕ → ℤ) (g : ℕ → List ℚ → ℚ) :
    Describes ((List.range n).map bits) {y | ∃ x, Typed F x ∧ y = (List.range n).map fun p => g p x} ↔
    ∀ p < n, ∃ b : KIF, (b.k = 0 ∨ b.k = 1) ∧ b.width = bits p ∧ ∀ x, Typed F x → IsKif b.k b.i b.f (g p x) := by
  constructor
  · rintro ⟨G, hG, hw, hd⟩ p hp
    have hlen : G.length = n := by have := congrArg List.length hw; simpa using this.symm
    have hp' : p < G.length := by omega
    refine ⟨G[p], hG _ (List.getElem_mem hp'), ?_, fun x hx => ?_⟩
    · have := congrArg (fun l : List ℤ => l[p]?) hw
      simpa [List.getElem?_range hp, List.getElem?_eq_getElem hp', eq_comm] using this
    · have := (List.forall₂_iff_get.mp (hd _ ⟨x, hx, rfl⟩)).2 p hp' (by simpa using hp)
      simpa using this
  · intro h
    have : Nonempty KIF := ⟨⟨0, 0, 0⟩⟩
    choose! B hB using h
    refine ⟨(List.range n).map B, ?_, ?_, ?_⟩
    · intro b hb
      obtain ⟨p, hp, rfl⟩ := List.mem_map.mp hb
      exact (hB p (List.mem_range.mp hp)).1
    · rw [List.map_map]
      exact List.map_congr_left fun p hp => ((hB p (List.mem_range.mp hp)).2.1).symm
    · rintro y ⟨x, hx, rfl⟩
      unfold Typed
      simp only [List.forall₂_map_left_iff, List.forall₂_map_right_iff, List.forall₂_same]
      exact fun p hp => (hB p (List.mem_range.mp hp)).2.2 x hx

/-- a tensor with given values of the right types -/
theorem typed_of {F : List KIF} (v : ℕ → ℚ) (h : ∀ j (hj : j < F.length), IsKif F[j].k F[j].i F[j].f (v j)) :
    Typed F ((List.range F.length).map v) ∧ ∀ j < F.length, ((List.range F.length).map v).getD j 0 = v j := by
  refine ⟨List.forall₂_iff_get.mpr ⟨by simp, fun q h1 h2 => ?_⟩, fun j hj => ?_⟩
  · simpa using h q h1
  · simp [List.getD_eq_getElem?_getD, List.getElem?_range hj]

theorem Typed.at {F : List KIF} {x : List ℚ} (h : Typed F x) {j : ℕ} (hj : j < F.length) : IsKif F[j].k F[j].i F[j].f (x.getD j 0) := by
  have hx : j < x.length := by rw [← h.length_eq]; exact hj
  rw [List.getD_eq_getElem?_getD, List.getElem?_eq_getElem hx]
  exact (List.forall₂_iff_get.mp h).2 j hj hx

/-- the bits reported for a window -/
theorem maxPool_greatest {α : Type} [LinearOrder α] [Zero α] (x : List α) {w : List ℕ} (hne : w ≠ []) :
    (∃ j ∈ w, (w.map fun i => x.getD i 0).foldr max (x.getD (w.headD 0) 0) = x.getD j 0) ∧
    ∀ j ∈ w, x.getD j 0 ≤ (w.map fun i => x.getD i 0).foldr max (x.getD (w.headD 0) 0) := by
  constructor
  · rcases List.mem_cons.mp (foldr_max_mem (x.getD (w.headD 0) 0) (w.map fun i => x.getD i 0)) with h | h
    · refine ⟨w.headD 0, ?_, h⟩
      cases w with
      | nil => exact absurd rfl hne
      | cons a l => simp
    · obtain ⟨k, hk, he⟩ := List.mem_map.mp h
      exact ⟨k, hk, he.symm⟩
  · intro j hj
    have gen : ∀ (l : List α) (a : α), ∀ x ∈ l, x ≤ l.foldr max a := by
      intro l a
      induction l with
      | nil => simp
      | cons y l ih =>
        intro x hx
        rcases List.mem_cons.mp hx with rfl | hx
        · exact le_max_left _ _
        · exact (ih x hx).trans (le_max_right _ _)
    exact gen _ _ _ (List.mem_map.mpr ⟨j, hj, rfl⟩)

theorem width_getD {F : List KIF} {j : ℕ} (hj : j < F.length) : (F.map KIF.width).getD j 0 = F[j].width := by
  simp [List.getD_eq_getElem?_getD, List.getElem?_eq_getElem hj]

/-- **C75**, max pooling over windows in which the type of one position contains the types of the others: the pooled bits describe the pooled values. -/
theorem C75_max_pool_dominated (n : ℕ) (wins : ℕ → List ℕ) (F : List KIF) (hk : ∀ b ∈ F, b.k = 0 ∨ b.k = 1) (hin : ∀ p < n, ∀ j ∈ wins p, j < F.length)
    (hd : ∀ p (hp : p < n), ∃ m, ∃ hm : m ∈ wins p, ∀ j (hj : j ∈ wins p), ∀ v,
      IsKif (F[j]'(hin p hp j hj)).k (F[j]'(hin p hp j hj)).i (F[j]'(hin p hp j hj)).f v →
      IsKif (F[m]'(hin p hp m hm)).k (F[m]'(hin p hp m hm)).i (F[m]'(hin p hp m hm)).f v) :
    Describes (maxPool n wins (F.map KIF.width)) {y | ∃ x, Typed F x ∧ y = maxPool n wins x} := by
  refine (describes_pointwise n _ _).mpr fun p hp => ?_
  obtain ⟨m, hm, hc⟩ := hd p hp
  have hne : wins p ≠ [] := List.ne_nil_of_mem hm
  have hml := hin p hp m hm
  obtain ⟨b', h1, h2, h3⟩ := kif_wider (b := F[m]) (hk _ (List.getElem_mem hml)) (w := ((wins p).map fun i => (F.map KIF.width).getD i 0).foldr max
    ((F.map KIF.width).getD ((wins p).headD 0) 0)) (fun _ => by
      have := (maxPool_greatest (F.map KIF.width) hne).2 m hm
      rwa [width_getD hml] at this)
  refine ⟨b', h1, h2, fun x hx => ?_⟩
  obtain ⟨j, hj, he⟩ := (maxPool_greatest x hne).1
  rw [he]
  exact h3 _ (hc j hj _ (hx.at (hin p hp j hj)))

/-- **C75**, max pooling of unsigned values (the outputs of ReLUs), exactly: the pooled bits describe the pooled values if and only if in every
window the type of one position contains the types of all the others. -/
theorem C75_max_pool_unsigned_iff (n : ℕ) (wins : ℕ → List ℕ) (F : List KIF) (hk : ∀ b ∈ F, b.k = 0) (hin : ∀ p < n, ∀ j ∈ wins p, j < F.length)
    (hne : ∀ p < n, wins p ≠ []) :
    Describes (maxPool n wins (F.map KIF.width)) {y | ∃ x, Typed F x ∧ y = maxPool n wins x} ↔
    ∀ p (hp : p < n), ∃ m, ∃ hm : m ∈ wins p, ∀ j (hj : j ∈ wins p), ∀ v,
      IsKif (F[j]'(hin p hp j hj)).k (F[j]'(hin p hp j hj)).i (F[j]'(hin p hp j hj)).f v →
      IsKif (F[m]'(hin p hp m hm)).k (F[m]'(hin p hp m hm)).i (F[m]'(hin p hp m hm)).f v := by
  have hk' : ∀ b ∈ F, b.k = 0 ∨ b.k = 1 := fun b hb => .inl (hk b hb)
  refine ⟨fun h p hp => ?_, C75_max_pool_dominated n wins F hk' hin⟩
  obtain ⟨b, hb, hw, hd⟩ := (describes_pointwise n _ _).mp h p hp
  -- every value of every position of the window is a maximum
  have hall : ∀ j (hj : j ∈ wins p), ∀ v, IsKif (F[j]'(hin p hp j hj)).k (F[j]'(hin p hp j hj)).i (F[j]'(hin p hp j hj)).f v → IsKif b.k b.i b.f v := by
    intro j hj v hv
    have hjl := hin p hp j hj
    obtain ⟨t1, t2⟩ := typed_of (F := F) (fun q => if q = j then v else 0) (fun q hq => by
      split_ifs with h
      · subst h; exact hv
      · exact kif_zero (hk' _ (List.getElem_mem hq)))
    have h0 : 0 ≤ v := by
      have := hv.2.1
      rw [hk _ (List.getElem_mem hjl)] at this
      simpa using this
    have := hd _ t1
    convert this using 1
    obtain ⟨⟨l, hl, e1⟩, e2⟩ := maxPool_greatest ((List.range F.length).map fun q => if q = j then v else 0) (hne p hp)
    have e3 := e2 j hj
    rw [t2 j hjl, if_pos rfl] at e3
    refine le_antisymm e3 ?_
    rw [e1, t2 l (hin p hp l hl)]
    split_ifs
    · exact le_rfl
    · exact h0
  obtain ⟨m, hm, em⟩ := (maxPool_greatest (F.map KIF.width) (hne p hp)).1
  have hml := hin p hp m hm
  rw [em, width_getD hml] at hw
  refine ⟨m, hm, fun j hj v hv => ?_⟩
  have hjl := hin p hp j hj
  by_cases hpos : 0 < F[m].width
  · have := kif_width_eq (hk' _ (List.getElem_mem hml)) hb hpos hw (hall m hm)
    rw [← this]
    exact hall j hj v hv
  · have hjw : F[j].width ≤ 0 := by
      have := (maxPool_greatest (F.map KIF.width) (hne p hp)).2 j hj
      rw [em, width_getD hml, width_getD hjl] at this
      omega
    rw [kif_only_zero (hk' _ (List.getElem_mem hjl)) hjw hv]
    exact kif_zero (hk' _ (List.getElem_mem hml))

-- types with the same unit: the wider one contains the narrower one; types with the same number of bits and different units do not
example : Describes [3] {y | ∃ x, Typed [⟨0, 3, 0⟩, ⟨0, 2, 0⟩] x ∧ y = maxPool 1 (fun _ => [0, 1]) x} :=
  (C75_max_pool_unsigned_iff 1 (fun _ => [0, 1]) [⟨0, 3, 0⟩, ⟨0, 2, 0⟩] (by simp) (by simp) (by simp)).mpr fun p hp => ⟨0, by simp, by
    intro j hj v hv
    simp only [List.mem_cons, List.not_mem_nil, or_false] at hj
    rcases hj with rfl | rfl
    · exact hv
    · exact ⟨hv.1, (by have := hv.2.1; simpa using this), lt_trans hv.2.2 (by norm_num)⟩⟩

/-! ### average pooling -/

theorem sum_window_one {w : List ℕ} (hn : w.Nodup) {j : ℕ} (hj : j ∈ w) (a : ℚ) : (w.map fun q => if q = j then a else 0).sum = a := by
  rw [← List.sum_toFinset _ hn, Finset.sum_ite_eq' w.toFinset j (fun _ => a), if_pos (List.mem_toFinset.mpr hj)]

theorem sum_window_two {w : List ℕ} (hn : w.Nodup) {j l : ℕ} (hj : j ∈ w) (hl : l ∈ w) (a c : ℚ) :
    (w.map fun q => (if q = j then a else 0) + (if q = l then c else 0)).sum = a + c := by
  rw [List.sum_map_add, sum_window_one hn hj, sum_window_one hn hl]

/-- a number of which a multiple is a power of two -/
theorem pow_two_of_mul {a N : ℤ} (hN : 0 < N) (ha : 0 < a) {e : ℤ} (h : (a : ℚ) * N = (2 : ℚ) ^ e) : ∃ m : ℕ, N = 2 ^ m := by
  have he : 0 ≤ e := by
    by_contra hc
    have h1 : (2 : ℚ) ^ e < (2 : ℚ) ^ (0 : ℤ) := zpow_lt_zpow_right₀ (by norm_num) (by omega)
    rw [← h, zpow_zero] at h1
    have : a * N < 1 := by exact_mod_cast h1
    nlinarith
  obtain ⟨t, rfl⟩ := Int.eq_ofNat_of_zero_le he
  rw [zpow_natCast] at h
  have h : a * N = 2 ^ t := by exact_mod_cast h
  obtain ⟨N', rfl⟩ := Int.eq_ofNat_of_zero_le hN.le
  have hd : N' ∣ 2 ^ t := by
    have : (N' : ℤ) ∣ 2 ^ t := ⟨a, by rw [← h]; ring⟩
    exact_mod_cast this
  obtain ⟨m, -, hm⟩ := (Nat.dvd_prime_pow Nat.prime_two).mp hd
  exact ⟨m, by exact_mod_cast hm⟩

/-- dividing the values of a type by a power of two -/
theorem kif_scale {b : KIF} (s : ℕ) (v : ℚ) : IsKif b.k (b.i - s) (b.f + s) (v / 2 ^ s) ↔ IsKif b.k b.i b.f v := by
  have hs : (0 : ℚ) < 2 ^ s := by positivity
  have e1 : (2 : ℚ) ^ (b.i - s) = (2 : ℚ) ^ b.i / 2 ^ s := by rw [zpow_sub₀ (by norm_num), zpow_natCast]
  have e2 : (2 : ℚ) ^ (-(b.f + s)) = (2 : ℚ) ^ (-b.f) / 2 ^ s := by
    rw [show -(b.f + s) = -b.f - s by ring, zpow_sub₀ (by norm_num), zpow_natCast]
  unfold IsKif
  rw [e1, e2]
  refine and_congr ⟨?_, ?_⟩ (and_congr ?_ ?_)
  · rintro ⟨n, hn⟩
    refine ⟨n, ?_⟩
    have : v / 2 ^ s * 2 ^ s = n * ((2 : ℚ) ^ (-b.f) / 2 ^ s) * 2 ^ s := by rw [hn]
    rw [div_mul_cancel₀ _ hs.ne'] at this
    rw [this, mul_assoc, div_mul_cancel₀ _ hs.ne']
  · rintro ⟨n, hn⟩
    exact ⟨n, by rw [hn, mul_div_assoc]⟩
  · rw [← mul_div_assoc, ← neg_div, div_le_div_iff_of_pos_right hs]
  · rw [div_lt_div_iff_of_pos_right hs]

/-- **C75**, average pooling, exactly: the reported bits (the largest of the window) describe the averages if and only if, in every window, no
position has bits, or the size of the window is a power of two and only one position has bits. -/
theorem C75_average_pool_iff (n : ℕ) (wins : ℕ → List ℕ) (F : List KIF) (hk : ∀ b ∈ F, b.k = 0 ∨ b.k = 1) (hin : ∀ p < n, ∀ j ∈ wins p, j < F.length)
    (hne : ∀ p < n, wins p ≠ []) (hnd : ∀ p < n, (wins p).Nodup) :
    Describes (maxPool n wins (F.map KIF.width))
      {y | ∃ x, Typed F x ∧ y = (List.range n).map fun p => ((wins p).map fun j => x.getD j 0).sum / (wins p).length} ↔
    ∀ p < n, (∀ j ∈ wins p, (F.map KIF.width).getD j 0 ≤ 0) ∨
      ((∃ m : ℕ, (wins p).length = 2 ^ m) ∧ ∃ j ∈ wins p, ∀ l ∈ wins p, l ≠ j → (F.map KIF.width).getD l 0 ≤ 0) := by
  refine (describes_pointwise n _ _).trans (forall₂_congr fun p hp => ?_)
  have hnd := hnd p hp
  have hne := hne p hp
  have hin := hin p hp
  have hkj : ∀ j (hj : j < F.length), F[j].k = 0 ∨ F[j].k = 1 := fun j hj => hk _ (List.getElem_mem hj)
  generalize wins p = w at *
  have hN : 0 < w.length := List.length_pos_iff.mpr hne
  have hNq : (0 : ℚ) < w.length := by exact_mod_cast hN
  obtain ⟨⟨m, hm, em⟩, hmax⟩ := maxPool_greatest (F.map KIF.width) hne
  rw [em] at hmax ⊢
  have hml := hin m hm
  rw [width_getD hml] at hmax ⊢
  constructor
  · rintro ⟨b, hb, hbw, hd⟩
    by_cases hpos : 0 < F[m].width
    swap
    · exact .inl fun j hj => (hmax j hj).trans (by omega)
    right
    -- averages with one value other than 0
    have one : ∀ v, IsKif F[m].k F[m].i F[m].f v → IsKif b.k b.i b.f (v / w.length) := by
      intro v hv
      obtain ⟨t1, t2⟩ := typed_of (F := F) (fun q => if q = m then v else 0) (fun q hq => by
        split_ifs with h
        · subst h; exact hv
        · exact kif_zero (hkj q hq))
      have := hd _ t1
      rwa [List.map_congr_left (fun j hj => t2 j (hin j hj)), sum_window_one hnd hm] at this
    have hpow : ∃ s : ℕ, w.length = 2 ^ s := by
      have hu := zpow2_pos (-F[m].f)
      have hub := zpow2_pos (-b.f)
      obtain ⟨z, hz, he⟩ : ∃ z : ℤ, 0 < z ∧ (2 : ℚ) ^ (-F[m].f) = z * w.length * (2 : ℚ) ^ (-b.f) := by
        rcases kif_unit_mem (hkj m hml) hpos with hv | hv
        · obtain ⟨z, hz⟩ := (one _ hv).1
          have e : (2 : ℚ) ^ (-F[m].f) = z * w.length * (2 : ℚ) ^ (-b.f) := by
            rw [div_eq_iff hNq.ne'] at hz; rw [hz]; ring
          refine ⟨z, ?_, e⟩
          by_contra hc
          have : (z : ℚ) ≤ 0 := by exact_mod_cast (not_lt.mp hc)
          have : (z : ℚ) * w.length * (2 : ℚ) ^ (-b.f) ≤ 0 :=
            mul_nonpos_of_nonpos_of_nonneg (mul_nonpos_of_nonpos_of_nonneg this hNq.le) hub.le
          linarith
        · obtain ⟨z, hz⟩ := (one _ hv).1
          have e : (2 : ℚ) ^ (-F[m].f) = (-z : ℤ) * w.length * (2 : ℚ) ^ (-b.f) := by
            rw [div_eq_iff hNq.ne'] at hz; push_cast; linarith
          refine ⟨-z, ?_, e⟩
          by_contra hc
          have : ((-z : ℤ) : ℚ) ≤ 0 := by exact_mod_cast (not_lt.mp hc)
          have : ((-z : ℤ) : ℚ) * w.length * (2 : ℚ) ^ (-b.f) ≤ 0 :=
            mul_nonpos_of_nonpos_of_nonneg (mul_nonpos_of_nonpos_of_nonneg this hNq.le) hub.le
          linarith
      obtain ⟨s, hs⟩ := pow_two_of_mul (a := z) (N := w.length) (by exact_mod_cast hN) hz (e := b.f - F[m].f) (by
        have : (2 : ℚ) ^ (b.f - F[m].f) = (2 : ℚ) ^ (-F[m].f) / (2 : ℚ) ^ (-b.f) := by
          rw [← zpow_sub₀ (by norm_num)]; congr 1; ring
        rw [this, he, mul_div_assoc, div_self hub.ne', mul_one]
        push_cast
        rfl)
      exact ⟨s, by exact_mod_cast hs⟩
    refine ⟨hpow, m, hm, fun l hl hlm => ?_⟩
    obtain ⟨s, hs⟩ := hpow
    have hsq : (w.length : ℚ) = 2 ^ s := by exact_mod_cast hs
    rw [hsq] at one hd
    have hs0 : (0 : ℚ) < 2 ^ s := by positivity
    -- the type of the averages
    have hbe : b = ⟨F[m].k, F[m].i - s, F[m].f + s⟩ :=
      kif_width_eq (b := ⟨F[m].k, F[m].i - s, F[m].f + s⟩) (hkj m hml) hb (by unfold KIF.width at hpos ⊢; dsimp only; omega)
        (by rw [hbw]; unfold KIF.width; dsimp only; omega) (fun v hv => by
          have := (kif_scale (b := F[m]) s (v * 2 ^ s)).mp (by rwa [mul_div_cancel_right₀ _ hs0.ne'])
          have := one _ this
          rwa [mul_div_cancel_right₀ _ hs0.ne'] at this)
    subst hbe
    have hll := hin l hl
    rw [width_getD hll]
    by_contra hc
    push Not at hc
    have two : ∀ a c, IsKif F[m].k F[m].i F[m].f a → IsKif F[l].k F[l].i F[l].f c → IsKif F[m].k F[m].i F[m].f (a + c) := by
      intro a c ha hc
      obtain ⟨t1, t2⟩ := typed_of (F := F) (fun q => (if q = m then a else 0) + (if q = l then c else 0)) (fun q hq => by
        split_ifs with h1 h2 h2
        · exact absurd (h2.symm.trans h1) hlm
        · subst h1; rwa [add_zero]
        · subst h2; rwa [zero_add]
        · rw [add_zero]; exact kif_zero (hkj q hq))
      have := hd _ t1
      rw [List.map_congr_left (fun j hj => t2 j (hin j hj)), sum_window_two hnd hm hl] at this
      exact (kif_scale (b := F[m]) s _).mp this
    have hu := zpow2_pos (-F[m].f)
    have hul := zpow2_pos (-F[l].f)
    rcases kif_unit_mem (hkj l hll) hc with hv | hv
    · have h1 := two _ _ (kif_hi_mem (hkj m hml) hpos) hv
      obtain ⟨z1, hz1⟩ := (kif_hi_mem (hkj m hml) hpos).1
      obtain ⟨z2, hz2⟩ := h1.1
      have h2 := h1.2.2
      have h3 : (2 : ℚ) ^ (-F[l].f) = (z2 - z1) * (2 : ℚ) ^ (-F[m].f) := by linarith
      have h4 : (0 : ℚ) < z2 - z1 := by
        by_contra hc
        push Not at hc
        have := mul_nonpos_of_nonpos_of_nonneg hc hu.le
        linarith
      have h5 : (1 : ℚ) ≤ z2 - z1 := by
        have : (0 : ℤ) < z2 - z1 := by exact_mod_cast h4
        have : (1 : ℤ) ≤ z2 - z1 := by omega
        exact_mod_cast this
      nlinarith
    · have h1 := (two _ _ (kif_lo_mem (hkj m hml) hpos) hv).2.1
      linarith
  · -- without bits all averages are 0
    have zero : (∀ j ∈ w, (F.map KIF.width).getD j 0 ≤ 0) → ∃ b : KIF, (b.k = 0 ∨ b.k = 1) ∧ b.width = F[m].width ∧
        ∀ x, Typed F x → IsKif b.k b.i b.f ((w.map fun j => x.getD j 0).sum / w.length) := by
      intro h
      refine ⟨⟨0, F[m].width, 0⟩, .inl rfl, by simp [KIF.width], fun x hx => ?_⟩
      rw [List.sum_eq_zero (fun v hv => by
        obtain ⟨j, hj, rfl⟩ := List.mem_map.mp hv
        have hjl := hin j hj
        have := h j hj
        rw [width_getD hjl] at this
        exact kif_only_zero (hkj j hjl) this (hx.at hjl)), zero_div]
      exact kif_zero (b := ⟨0, F[m].width, 0⟩) (.inl rfl)
    rintro (h | ⟨⟨s, hs⟩, j, hj, h⟩)
    · exact zero h
    have hjl := hin j hj
    by_cases hpos : 0 < F[j].width
    swap
    · refine zero fun l hl => ?_
      by_cases hlj : l = j
      · subst hlj; rw [width_getD hjl]; omega
      · exact h l hl hlj
    have hmj : m = j := by
      by_contra hc
      have h1 := h m hm hc
      have h2 := hmax j hj
      rw [width_getD hml] at h1
      rw [width_getD hjl] at h2
      omega
    subst hmj
    refine ⟨⟨F[m].k, F[m].i - s, F[m].f + s⟩, hkj m hml, by unfold KIF.width; dsimp only; omega, fun x hx => ?_⟩
    have e : (w.map fun q => x.getD q 0) = w.map fun q => if q = m then x.getD m 0 else 0 := by
      refine List.map_congr_left fun q hq => ?_
      split_ifs with hqm
      · rw [hqm]
      · have := h q hq hqm
        rw [width_getD (hin q hq)] at this
        exact kif_only_zero (hkj q (hin q hq)) this (hx.at (hin q hq))
    rw [e, sum_window_one hnd hm, show (w.length : ℚ) = 2 ^ s by exact_mod_cast hs]
    exact (kif_scale (b := F[m]) s _).mpr (hx.at hml)

-- windows of two: described if one of the positions is always 0, not described if both have bits
example : Describes [3] {y | ∃ x, Typed [⟨0, 3, 0⟩, ⟨0, 0, 0⟩] x ∧ y = (List.range 1).map fun _ => (([0, 1] : List ℕ).map fun j => x.getD j 0).sum /
    (([0, 1] : List ℕ).length : ℚ)} :=
  (C75_average_pool_iff 1 (fun _ => [0, 1]) [⟨0, 3, 0⟩, ⟨0, 0, 0⟩] (by simp) (by simp) (by simp) (by simp)).mpr fun p _ =>
    .inr ⟨⟨1, rfl⟩, 0, by simp, by decide⟩

example : ¬ Describes [3] {y | ∃ x, Typed [⟨0, 3, 0⟩, ⟨1, 0, 0⟩] x ∧ y = (List.range 1).map fun _ => (([0, 1] : List ℕ).map fun j => x.getD j 0).sum /
    (([0, 1] : List ℕ).length : ℚ)} := fun h => by
  have := (C75_average_pool_iff 1 (fun _ => [0, 1]) [⟨0, 3, 0⟩, ⟨1, 0, 0⟩] (by simp) (by simp) (by simp) (by simp)).mp h 0 (by simp)
  rcases this with h | ⟨-, h⟩
  · revert h; decide
  · revert h; decide

end HGQ
