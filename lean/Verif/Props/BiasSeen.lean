import Verif.Props.Net

/-!
C61 and C62, exactly: when two roundings of the bias can be told apart.
-/

namespace HGQ

/-- the values a quantizer rounds to `n` steps -/
theorem evalQ_at (st : ℤ) (f : ℚ) (n : ℤ) {y : ℚ} (h1 : n * p2 (-(tfRound f)) - (if st = 3 then 0 else p2 (-(tfRound f)) / 2) ≤ y)
    (h2 : y < (n + 1) * p2 (-(tfRound f)) - (if st = 3 then 0 else p2 (-(tfRound f)) / 2)) : evalQ st f y = n * p2 (-(tfRound f)) := by
  rw [evalQ_eq]
  have hp := p2_pos (tfRound f)
  have e := p2_neg_mul (tfRound f)
  by_cases h3 : st = 3
  · simp only [h3, if_true, sub_zero] at *
    congr 2
    change ⌊_⌋ = n
    rw [Int.floor_eq_iff]
    constructor
    · calc (n : ℚ) = n * p2 (-(tfRound f)) * p2 (tfRound f) := by rw [mul_assoc, e, mul_one]
        _ ≤ _ := mul_le_mul_of_nonneg_right h1 hp.le
    · calc y * p2 (tfRound f) < ((n : ℚ) + 1) * p2 (-(tfRound f)) * p2 (tfRound f) := mul_lt_mul_of_pos_right h2 hp
        _ = _ := by rw [mul_assoc, e, mul_one]
  · simp only [h3, if_false] at *
    congr 2
    change ⌊_⌋ = n
    rw [Int.floor_eq_iff]
    have g1 := mul_le_mul_of_nonneg_right h1 hp.le
    have g2 := mul_lt_mul_of_pos_right h2 hp
    have e1 : ((n : ℚ) * p2 (-(tfRound f)) - p2 (-(tfRound f)) / 2) * p2 (tfRound f) = n - 1 / 2 := by
      have : ((n : ℚ) * p2 (-(tfRound f)) - p2 (-(tfRound f)) / 2) * p2 (tfRound f) = (n - 1 / 2) * (p2 (-(tfRound f)) * p2 (tfRound f)) := by ring
      rw [this, e, mul_one]
    have e2 : (((n : ℚ) + 1) * p2 (-(tfRound f)) - p2 (-(tfRound f)) / 2) * p2 (tfRound f) = n + 1 / 2 := by
      have : (((n : ℚ) + 1) * p2 (-(tfRound f)) - p2 (-(tfRound f)) / 2) * p2 (tfRound f) = (n + 1 / 2) * (p2 (-(tfRound f)) * p2 (tfRound f)) := by ring
      rw [this, e, mul_one]
    rw [e1] at g1
    rw [e2] at g2
    constructor <;> linarith

/-- two different offsets within the range are told apart by some value, with both results within the range -/
theorem evalQ_separates (st : ℤ) (f : ℚ) {lo hi : ℚ} (hlo : ∃ n : ℤ, lo = n * p2 (-(tfRound f))) (hhi : ∃ n : ℤ, hi = n * p2 (-(tfRound f)))
    {b1 b2 : ℚ} (hb : b1 < b2) (hr : b2 - b1 ≤ hi - lo) :
    ∃ z, evalQ st f (z + b1) < evalQ st f (z + b2) ∧ lo ≤ evalQ st f (z + b1) ∧ evalQ st f (z + b2) ≤ hi := by
  obtain ⟨n, rfl⟩ := hlo
  obtain ⟨m, rfl⟩ := hhi
  have at' := evalQ_at st f
  have mono := fun {x y : ℚ} => evalQ_mono st f (x := x) (y := y)
  have hu := p2_pos (-(tfRound f))
  generalize p2 (-(tfRound f)) = u at *
  have ht0 : 0 ≤ (if st = 3 then 0 else u / 2 : ℚ) := by split <;> linarith
  have ht1 : (if st = 3 then 0 else u / 2 : ℚ) < u := by split <;> linarith
  generalize (if st = 3 then 0 else u / 2 : ℚ) = t at *
  have hnm : n + 1 ≤ m := by
    have : (n : ℚ) < m := by
      by_contra hc
      push Not at hc
      have := mul_le_mul_of_nonneg_right hc hu.le
      linarith
    exact_mod_cast this
  have hnm' : ((n : ℚ) + 1) * u ≤ m * u := mul_le_mul_of_nonneg_right (by exact_mod_cast hnm) hu.le
  refine ⟨max (n * u - b1) ((n + 1) * u - b2) - t, ?_⟩
  have g1 := le_max_left (n * u - b1) ((n + 1) * u - b2)
  have g2 := le_max_right (n * u - b1) ((n + 1) * u - b2)
  have g3 : max (n * u - b1) ((n + 1) * u - b2) < (n + 1) * u - b1 := max_lt (by linarith) (by linarith)
  have g4 : max (n * u - b1) ((n + 1) * u - b2) ≤ m * u - b2 := max_le (by linarith) (by linarith)
  generalize max (n * u - b1) ((n + 1) * u - b2) = z at *
  have r1 : evalQ st f (z - t + b1) = n * u := at' n (by linarith) (by linarith)
  have r2 : ((n + 1 : ℤ) : ℚ) * u ≤ evalQ st f (z - t + b2) := by
    rw [← at' (n + 1) (y := (n + 1) * u - t) (by push_cast; linarith) (by push_cast; linarith)]
    exact mono (by linarith)
  have r3 : evalQ st f (z - t + b2) ≤ m * u := by
    rw [← at' m (y := m * u - t) (by linarith) (by linarith)]
    exact mono (by linarith)
  push_cast at r2
  refine ⟨by rw [r1]; linarith, by rw [r1], r3⟩

/-- the inputs reach every value before the bias is added -/
theorem LinLayer.reach (L : LinLayer) {p : ℕ} (h : ∃ a : List ℚ, ((L.taps p).map fun ij => a.getD ij.1 0 * L.qkernel ij.2).sum ≠ 0) (z : ℚ) :
    ∃ x : List ℚ, ((L.taps p).map fun ij => x.getD ij.1 0 * L.qkernel ij.2).sum = z := by
  obtain ⟨a, ha⟩ := h
  refine ⟨a.map (z / ((L.taps p).map fun ij => a.getD ij.1 0 * L.qkernel ij.2).sum * ·), ?_⟩
  generalize hc : z / ((L.taps p).map fun ij => a.getD ij.1 0 * L.qkernel ij.2).sum = c
  have e : ∀ i, (a.map (c * ·)).getD i 0 = c * a.getD i 0 := by
    intro i
    rw [List.getD_eq_getElem?_getD, List.getD_eq_getElem?_getD, List.getElem?_map]
    cases a[i]? <;> simp
  have : ((L.taps p).map fun ij => (a.map (c * ·)).getD ij.1 0 * L.qkernel ij.2) =
      ((L.taps p).map fun ij => a.getD ij.1 0 * L.qkernel ij.2).map (c * ·) := by
    rw [List.map_map]
    refine List.map_congr_left fun ij _ => ?_
    simp only [Function.comp, e]
    ring
  rw [this, List.sum_map_mul_left, List.map_id', ← hc, div_mul_cancel₀ _ ha]

/-- **C61**, exactly: a layer with a bias, without relu, whose output at `p` depends on the input. If the bias as rounded by the call (with the bits
of the channel location it uses) and as rounded for the proxy (with the bits of the channel) differ by no more than the recorded range is wide, then
the proxy agrees with the layer on all inputs within the recorded range if and only if the two roundings are equal. -/
theorem C61_iff (L : LinLayer) (s : QState) (hs : Compat L.outShape L.qShape) (hc : ∀ e, L.paq.clip (s.fbw e) = s.fbw e) (b : ℕ → ℚ)
    (hb : L.bias = some b) (hrelu : L.reluAct = false) (aggressive : Bool) (p : ℕ) (hp : p < prodL L.outShape) (lo hi : ℚ)
    (ht : Traced s (L.elem p) lo hi)
    (hreach : ∃ a : List ℚ, ((L.taps p).map fun ij => a.getD ij.1 0 * L.qkernel ij.2).sum ≠ 0)
    (hnear : |L.qbias L.jitLoc s.fbw b (L.chan p) - L.qbias L.chLoc s.fbw b (L.chan p)| ≤ hi - lo) :
    (∀ x, lo ≤ L.quant s x p → L.quant s x p ≤ hi → L.proxyOut s (proxySat aggressive) x p = L.quant s x p) ↔
      L.qbias L.jitLoc s.fbw b (L.chan p) = L.qbias L.chLoc s.fbw b (L.chan p) := by
  -- the layer that uses the right channel location: it agrees with the proxy
  have hw : ({ L with jitLoc := L.chLoc } : LinLayer).WF s := ⟨hs, hc, .inl rfl⟩
  have right : ∀ x, lo ≤ ({ L with jitLoc := L.chLoc } : LinLayer).quant s x p → ({ L with jitLoc := L.chLoc } : LinLayer).quant s x p ≤ hi →
      L.proxyOut s (proxySat aggressive) x p = ({ L with jitLoc := L.chLoc } : LinLayer).quant s x p := by
    intro x h1 h2
    have := C24_linear_eq_proxy _ s hw hrelu aggressive x p hp lo hi ht h1 h2
    unfold LinLayer.post at this
    rw [if_neg (by simp [hrelu])] at this
    exact this
  have q1 : ∀ x, L.quant s x p = evalQ L.paq.strategy (s.fbw (L.elem p))
      (((L.taps p).map fun ij => x.getD ij.1 0 * L.qkernel ij.2).sum + L.qbias L.jitLoc s.fbw b (L.chan p)) := by
    intro x
    unfold LinLayer.quant LinLayer.pre LinLayer.preact LinLayer.jitBias
    rw [hc, hb]
  have q2 : ∀ x, ({ L with jitLoc := L.chLoc } : LinLayer).quant s x p = evalQ L.paq.strategy (s.fbw (L.elem p))
      (((L.taps p).map fun ij => x.getD ij.1 0 * L.qkernel ij.2).sum + L.qbias L.chLoc s.fbw b (L.chan p)) := by
    intro x
    unfold LinLayer.quant LinLayer.pre LinLayer.preact LinLayer.jitBias
    simp only [hc, hb]
    rfl
  constructor
  · intro h
    by_contra hne
    rcases lt_or_gt_of_ne hne with hlt | hgt
    · rw [abs_of_neg (by linarith)] at hnear
      obtain ⟨z, h1, h2, h3⟩ := evalQ_separates L.paq.strategy (s.fbw (L.elem p)) ht.glo ht.ghi hlt (by linarith)
      obtain ⟨x, rfl⟩ := L.reach hreach z
      rw [← q1, ← q2] at h1
      rw [← q1] at h2
      rw [← q2] at h3
      exact h1.ne ((h x h2 (h1.le.trans h3)).symm.trans (right x (h2.trans h1.le) h3))
    · rw [abs_of_pos (by linarith)] at hnear
      obtain ⟨z, h1, h2, h3⟩ := evalQ_separates L.paq.strategy (s.fbw (L.elem p)) ht.glo ht.ghi hgt (by linarith)
      obtain ⟨x, rfl⟩ := L.reach hreach z
      rw [← q1, ← q2] at h1
      rw [← q2] at h2
      rw [← q1] at h3
      exact h1.ne ((right x h2 (h1.le.trans h3)).symm.trans (h x (h2.trans h1.le) h3))
  · intro h x h1 h2
    have e : L.quant s x p = ({ L with jitLoc := L.chLoc } : LinLayer).quant s x p := by rw [q1, q2, h]
    rw [e] at h1 h2 ⊢
    exact right x h1 h2

/-- **C62**, exactly: a layer with a bias whose output at `p` depends on the input, in a state with any bitwidths. The first call, which rounds the bias
before the bitwidths are clipped, and every later call agree at `p` on all inputs if and only if the bias rounds to the same value before and after
the clipping. -/
theorem C62_iff (L : LinLayer) (s : QState) (b : ℕ → ℚ) (hb : L.bias = some b) (p : ℕ)
    (hreach : ∃ a : List ℚ, ((L.taps p).map fun ij => a.getD ij.1 0 * L.qkernel ij.2).sum ≠ 0) :
    (∀ x, L.quant s x p = L.quant { s with fbw := fun e => L.paq.clip (s.fbw e) } x p) ↔
      L.qbias L.jitLoc s.fbw b (L.chan p) = L.qbias L.jitLoc (fun e => L.paq.clip (s.fbw e)) b (L.chan p) := by
  have q1 : ∀ x, L.quant s x p = evalQ L.paq.strategy (L.paq.clip (s.fbw (L.elem p)))
      (((L.taps p).map fun ij => x.getD ij.1 0 * L.qkernel ij.2).sum + L.qbias L.jitLoc s.fbw b (L.chan p)) := by
    intro x
    unfold LinLayer.quant LinLayer.pre LinLayer.preact LinLayer.jitBias
    rw [hb]
  have q2 : ∀ x, L.quant { s with fbw := fun e => L.paq.clip (s.fbw e) } x p = evalQ L.paq.strategy (L.paq.clip (s.fbw (L.elem p)))
      (((L.taps p).map fun ij => x.getD ij.1 0 * L.qkernel ij.2).sum + L.qbias L.jitLoc (fun e => L.paq.clip (s.fbw e)) b (L.chan p)) := by
    intro x
    unfold LinLayer.quant LinLayer.pre LinLayer.preact LinLayer.jitBias
    simp only [hb, QConf.clip_idem]
  constructor
  · intro h
    by_contra hne
    -- a range as wide as the difference
    have sep : ∀ b1 b2 : ℚ, b1 < b2 → ∃ z, evalQ L.paq.strategy (L.paq.clip (s.fbw (L.elem p))) (z + b1) <
        evalQ L.paq.strategy (L.paq.clip (s.fbw (L.elem p))) (z + b2) := by
      intro b1 b2 hlt
      have hp := p2_pos (-(tfRound (L.paq.clip (s.fbw (L.elem p)))))
      obtain ⟨n, hn⟩ : ∃ n : ℤ, (b2 - b1) / p2 (-(tfRound (L.paq.clip (s.fbw (L.elem p))))) < n :=
        ⟨⌊(b2 - b1) / p2 (-(tfRound (L.paq.clip (s.fbw (L.elem p)))))⌋ + 1, by push_cast; exact Int.lt_floor_add_one _⟩
      rw [div_lt_iff₀ hp] at hn
      obtain ⟨z, hz, -⟩ := evalQ_separates L.paq.strategy (L.paq.clip (s.fbw (L.elem p))) (lo := 0)
        (hi := (n : ℚ) * p2 (-(tfRound (L.paq.clip (s.fbw (L.elem p)))))) ⟨0, by simp⟩ ⟨n, rfl⟩ hlt (by linarith)
      exact ⟨z, hz⟩
    rcases lt_or_gt_of_ne hne with hlt | hgt
    · obtain ⟨z, hz⟩ := sep _ _ hlt
      obtain ⟨x, rfl⟩ := L.reach hreach z
      rw [← q1, ← q2] at hz
      exact hz.ne (h x)
    · obtain ⟨z, hz⟩ := sep _ _ hgt
      obtain ⟨x, rfl⟩ := L.reach hreach z
      rw [← q1, ← q2] at hz
      exact hz.ne (h x).symm
  · intro h x
    rw [q1, q2, h]

-- the layers of `C61_channels_first_fails` and `C62_first_call_fails` meet the hypotheses: their biases round differently
example : (((exFirst.taps 0).map fun ij => [(1 : ℚ)].getD ij.1 0 * exFirst.qkernel ij.2).sum ≠ 0) ∧
    exFirst.qbias exFirst.jitLoc exFirstState.fbw (fun _ => 1 / 4) (exFirst.chan 0) = 1 / 4 ∧
    exFirst.qbias exFirst.chLoc exFirstState.fbw (fun _ => 1 / 4) (exFirst.chan 0) = 0 := by decide +kernel

example : ¬ ∀ x, exUnclipped.quant exUnclippedState x 0 =
    exUnclipped.quant { exUnclippedState with fbw := fun e => exUnclipped.paq.clip (exUnclippedState.fbw e) } x 0 := by
  rw [C62_iff exUnclipped exUnclippedState (fun _ => 15 / 32) rfl 0 ⟨[1], by decide +kernel⟩]
  decide +kernel

end HGQ
