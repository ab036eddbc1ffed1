import Verif.Model.Int8
import Verif.Lemmas.Narrow
import Verif.Lemmas.FitsRange

/-!
C102: the bit counts of proxy quantizers are bytes. Within the stated limits nothing wraps around.
-/

namespace HGQ

theorem wrap8_eq {z : ℤ} (h1 : -128 ≤ z) (h2 : z ≤ 127) : wrap8 z = z := by
  unfold wrap8; omega

theorem listMax_bounds {l : List ℤ} {a b : ℤ} (h : ∀ z ∈ l, a ≤ z ∧ z ≤ b) (hne : l ≠ []) : a ≤ listMax l ∧ listMax l ≤ b :=
  h _ (listMax_mem hne)

/-- **C102**, the types recorded by calibration: for every recorded range and all fractional bits from -128 to 94, the quantizer of the
proxy has the bit counts computed without a limit on their size. -/
theorem C102_recorded_types (mn mx fbw : ℚ) (posOnly : Bool) (h1 : -128 ≤ tfRound fbw) (h2 : tfRound fbw ≤ 94) :
    bitsExact8 mn mx fbw posOnly = bitsExact mn mx fbw posOnly ∧
    proxyQ8 (bitsExact8 mn mx fbw posOnly) = proxyQ (bitsExact mn mx fbw posOnly) := by
  have hc : ∀ (i : WithBot ℤ) (lo : ℤ), min lo 32 ≤ clipBits i lo ∧ clipBits i lo ≤ 32 := by
    intro i lo
    unfold clipBits
    split <;> omega
  have key : ∀ (k : ℤ) (i : WithBot ℤ), (k = 0 ∨ k = 1) →
      (let k8 := wrap8 k
       let i8 := wrap8 (clipBits i (-tfRound fbw - k))
       let f8 := wrap8 (tfRound fbw)
       let mask := if wrap8 (wrap8 (k8 + i8) + f8) ≠ 0 then 1 else 0
       (⟨wrap8 (k8 * mask), wrap8 (i8 * mask), wrap8 (f8 * mask)⟩ : KIF)) = maskKif k (clipBits i (-tfRound fbw - k)) (tfRound fbw) := by
    intro k i hk
    obtain ⟨c1, c2⟩ := hc i (-tfRound fbw - k)
    generalize clipBits i (-tfRound fbw - k) = c at *
    generalize tfRound fbw = f at *
    simp only
    rw [wrap8_eq (z := k) (by omega) (by omega), wrap8_eq (z := c) (by omega) (by omega), wrap8_eq (z := f) (by omega) (by omega),
      wrap8_eq (z := k + c) (by omega) (by omega), wrap8_eq (z := k + c + f) (by omega) (by omega)]
    unfold maskKif
    split_ifs with h
    · simp only [mul_one]
      rw [wrap8_eq (z := k) (by omega) (by omega), wrap8_eq (z := c) (by omega) (by omega), wrap8_eq (z := f) (by omega) (by omega)]
    · simp only [mul_zero]; rfl
  have he : bitsExact8 mn mx fbw posOnly = bitsExact mn mx fbw posOnly := by
    unfold bitsExact8 bitsExact
    cases posOnly with
    | true => exact key 0 _ (.inl rfl)
    | false => exact key _ _ (by simp only [Bool.false_eq_true, if_false]; split_ifs <;> simp)
  refine ⟨he, ?_⟩
  rw [he]
  have hb : ∃ k c, (k = 0 ∨ k = 1) ∧ min (-tfRound fbw - k) 32 ≤ c ∧ c ≤ 32 ∧ bitsExact mn mx fbw posOnly = maskKif k c (tfRound fbw) := by
    unfold bitsExact
    cases posOnly with
    | true => exact ⟨0, _, .inl rfl, (hc _ _).1, (hc _ _).2, rfl⟩
    | false => exact ⟨_, _, (by split_ifs <;> simp), (hc _ _).1, (hc _ _).2, rfl⟩
  obtain ⟨k, c, hk, c1, c2, hb⟩ := hb
  rw [hb]
  unfold proxyQ8 proxyQ maskKif
  generalize tfRound fbw = f at *
  split_ifs
  · simp only [mul_one]
    rw [wrap8_eq (z := k + c) (by omega) (by omega), wrap8_eq (z := k + c + f) (by omega) (by omega)]
  · simp only [mul_zero]; rfl

/-- … and 94 is the limit: with 95 fractional bits and a range down to `-2^32` the byte for the total width is -128. -/
theorem C102_limit_is_sharp : tfRound 95 = 95 ∧ proxyQ8 (bitsExact8 (-(2 : ℚ) ^ (32 : ℕ)) 0 95 false) = ⟨1, -128, 33⟩ ∧
    proxyQ (bitsExact (-(2 : ℚ) ^ (32 : ℕ)) 0 95 false) = ⟨1, 128, 33⟩ := by decide +kernel

/-- the counts of a quantizer element that leave room for the sums formed by the precision queries -/
def KBI.Small (e : KBI) : Prop :=
  (e.keepNegative = 0 ∨ e.keepNegative = 1) ∧ -60 ≤ e.integers - e.keepNegative ∧ e.integers ≤ 60 ∧
  -60 ≤ e.bits - e.integers ∧ e.bits - e.integers ≤ 60

/-- quantizers from recorded ranges have such counts, for all fractional bits from -60 to 59 (the default limits are -23 and 23) -/
theorem small_of_recorded (mn mx fbw : ℚ) (posOnly : Bool) (h1 : -60 ≤ tfRound fbw) (h2 : tfRound fbw ≤ 59) :
    (proxyQ8 (bitsExact8 mn mx fbw posOnly)).Small := by
  rw [(C102_recorded_types mn mx fbw posOnly (by omega) (by omega)).2]
  have hc : ∀ (i : WithBot ℤ) (lo : ℤ), min lo 32 ≤ clipBits i lo ∧ clipBits i lo ≤ 32 := by
    intro i lo
    unfold clipBits
    split <;> omega
  have hb : ∃ k c, (k = 0 ∨ k = 1) ∧ min (-tfRound fbw - k) 32 ≤ c ∧ c ≤ 32 ∧ bitsExact mn mx fbw posOnly = maskKif k c (tfRound fbw) := by
    unfold bitsExact
    cases posOnly with
    | true => exact ⟨0, _, .inl rfl, (hc _ _).1, (hc _ _).2, rfl⟩
    | false => exact ⟨_, _, (by split_ifs <;> simp), (hc _ _).1, (hc _ _).2, rfl⟩
  obtain ⟨k, c, hk, c1, c2, hb⟩ := hb
  rw [hb]
  unfold proxyQ maskKif KBI.init
  generalize tfRound fbw = f at *
  split_ifs with h h'
  · simp only [mul_one] at h'; omega
  · simp only [mul_one]
    refine ⟨hk, ?_, ?_, ?_, ?_⟩ <;> simp only <;> omega
  · simp only [mul_zero]
    refine ⟨.inl rfl, ?_, ?_, ?_, ?_⟩ <;> simp only <;> omega
  · simp at *

theorem kif8_eq {q : FPQ} (h : ∀ e ∈ q.elems, e.Small) : q.kif8 = q.kif := by
  unfold FPQ.kif8 FPQ.kif resultTKif
  simp only [KIF.mk.injEq, true_and]
  constructor
  · congr 1
    apply List.map_congr_left
    intro e he
    obtain ⟨a, b, c, d, d'⟩ := h e he
    exact wrap8_eq (by omega) (by omega)
  · congr 1
    apply List.map_congr_left
    intro e he
    obtain ⟨a, b, c, d, d'⟩ := h e he
    exact wrap8_eq (by omega) (by omega)

theorem kif_bounds {q : FPQ} (h : ∀ e ∈ q.elems, e.Small) :
    (0 ≤ q.kif.k ∧ q.kif.k ≤ 1) ∧ (-60 ≤ q.kif.i ∧ q.kif.i ≤ 60) ∧ (-60 ≤ q.kif.f ∧ q.kif.f ≤ 60) := by
  rcases eq_or_ne q.elems [] with hn | hn
  · unfold FPQ.kif resultTKif
    simp [hn, listMax]
  · unfold FPQ.kif resultTKif
    refine ⟨listMax_bounds ?_ (by simpa), listMax_bounds ?_ (by simpa), listMax_bounds ?_ (by simpa)⟩ <;> intro z hz <;>
      obtain ⟨e, he, rfl⟩ := List.mem_map.mp hz <;> obtain ⟨a, b, c, d, d'⟩ := h e he <;> omega

theorem produced8_step {q : FPQ} (h : ∀ e ∈ q.elems, e.Small) {t : KIF} (hk : 0 ≤ t.k) (hi : -60 ≤ t.i) (hf : -60 ≤ t.f) :
    q.produced8 t = q.produced t ∧ ∀ e ∈ (q.produced t).2.elems, e.Small := by
  obtain ⟨⟨k1, k2⟩, ⟨i1, i2⟩, ⟨f1, f2⟩⟩ := kif_bounds h
  unfold FPQ.produced8 FPQ.produced
  rw [kif8_eq h]
  generalize q.kif = o at *
  simp only
  have hk3 : 0 ≤ min t.k o.k ∧ min t.k o.k ≤ 1 := by omega
  have hf3 : -60 ≤ min t.f o.f ∧ min t.f o.f ≤ 60 := by omega
  generalize hI : (if t.i ≤ o.i ∧ t.f > min t.f o.f then min t.i o.i + 1 else min t.i o.i) = i
  have hi3 : -60 ≤ i ∧ i ≤ 61 := by
    rw [← hI]; split_ifs <;> omega
  generalize min t.k o.k = k at *
  generalize min t.f o.f = f at *
  rw [wrap8_eq (z := k) (by omega) (by omega), wrap8_eq (z := k + i) (by omega) (by omega),
    wrap8_eq (z := k + i + f) (by omega) (by omega)]
  refine ⟨rfl, ?_⟩
  intro e he
  split_ifs at he
  · obtain ⟨e0, he0, rfl⟩ := List.mem_map.mp he
    obtain ⟨a, b, c, d, d'⟩ := h e0 he0
    refine ⟨?_, ?_, ?_, ?_, ?_⟩ <;> simp only <;> omega
  · exact h e he

/-- **C102**, the precision queries of the conversion: for quantizers with small counts, every sequence of queries with types of any width
above (infinite ones included) gives the same answers and leaves the same quantizer as with integers of any size. -/
theorem C102_queries (ts : List KIF) (ht : ∀ t ∈ ts, 0 ≤ t.k ∧ -60 ≤ t.i ∧ -60 ≤ t.f) :
    ∀ q : FPQ, (∀ e ∈ q.elems, e.Small) → q.queries8 ts = q.queries ts := by
  induction ts with
  | nil => intro q _; rfl
  | cons t ts ih =>
    intro q h
    obtain ⟨a, b, c⟩ := ht t (List.mem_cons_self)
    obtain ⟨h1, h2⟩ := produced8_step h a b c
    simp only [FPQ.queries8, FPQ.queries]
    rw [h1, ih (fun t ht' => ht t (List.mem_cons_of_mem _ ht')) _ h2]

/-- both parts together: a quantizer made by the conversion from recorded ranges, then queried -/
theorem C102_recorded_queries (rs : List (ℚ × ℚ × ℚ)) (hr : ∀ r ∈ rs, -60 ≤ tfRound r.2.2 ∧ tfRound r.2.2 ≤ 59) (posOnly : Bool) (R : Rnd)
    (S : Sat) (ts : List KIF) (ht : ∀ t ∈ ts, 0 ≤ t.k ∧ -60 ≤ t.i ∧ -60 ≤ t.f) :
    FPQ.queries8 ⟨rs.map fun r => proxyQ8 (bitsExact8 r.1 r.2.1 r.2.2 posOnly), R, S⟩ ts =
    FPQ.queries ⟨rs.map fun r => proxyQ (bitsExact r.1 r.2.1 r.2.2 posOnly), R, S⟩ ts := by
  rw [C102_queries ts ht]
  · congr 2
    apply List.map_congr_left
    intro r h
    exact (C102_recorded_types _ _ _ _ (by linarith [(hr r h).1]) (by linarith [(hr r h).2])).2
  · intro e he
    obtain ⟨r, h, rfl⟩ := List.mem_map.mp he
    exact small_of_recorded _ _ _ _ (hr r h).1 (hr r h).2

/-- Outside the limits it fails, for a quantizer that the conversion makes from recorded ranges: one element with a range down to `-2^32`,
one with 94 fractional bits. Each element is stored exactly, but the sum over both types is 128, and one query behind a type with 32
integer bits sets every element to -128 bits, where nothing should change. -/
theorem C102_wide_quantizer_fails :
    let q : FPQ := ⟨[proxyQ8 (bitsExact8 (-(2 : ℚ) ^ (32 : ℕ)) 0 (-20) false), proxyQ8 (bitsExact8 0 (1 / (2 : ℚ) ^ (94 : ℕ)) 94 false)], .TRN, .WRAP⟩
    q.elems = [⟨1, 13, 33⟩, ⟨0, 1, -93⟩] ∧ (q.produced ⟨1, 32, 65535⟩).2 = q ∧
    (q.produced8 ⟨1, 32, 65535⟩).2.elems = [⟨1, -128, 33⟩, ⟨0, -128, -93⟩] := by decide +kernel

-- hypotheses met: two recorded ranges, default limits, an infinite and a narrow type
example : FPQ.queries ⟨[proxyQ (bitsExact (-3) (7 / 2) 4 false), proxyQ (bitsExact 0 0 2 false)], .RND, .WRAP⟩
    [infKif, ⟨1, 1, 3⟩] = ([⟨1, 2, 4⟩, ⟨1, 1, 3⟩], ⟨[⟨1, 5, 2⟩, ⟨0, 0, 0⟩], .RND, .WRAP⟩) := by decide +kernel

end HGQ
