import Verif.Model.LayerFloat32
import Verif.Props.Layer
import Verif.Props.Float32
import Verif.Props.FixedPoint

/-!
C78: a layer with a kernel and its proxy, both evaluated in float32, return the same value.

`L.quantF fl32 s order x p` and `L.proxyOutF fl32 s S order x p` are the values computed by the HGQ layer and by the proxy with every operation
rounded to float32, accumulating in the given order.
-/

namespace HGQ

open Spec (IsFloat32)

/-- What keeps the float32 computation at output position `p` exact. Inputs are multiples of `2^-fx`, quantized weights of `2^-fw`;
`F` is at least `fx + fw` and at least 3 more than each activation bitwidth. The products, the bias and one unit of the output add up to
less than `2^23` units of `2^-F`. Weights and bias are float32 numbers below `2^23` of their own units. -/
structure LinLayer.Fits32 (L : LinLayer) (s : QState) (x : List ℚ) (p : ℕ) (fx fw F : ℤ) : Prop where
  input : ∀ ij ∈ L.taps p, ∃ n : ℤ, x.getD ij.1 0 = n * (2 : ℚ) ^ (-fx)
  weight : ∀ ij ∈ L.taps p, IsFloat32 (L.kernel ij.2) ∧
    |L.kernel ij.2 * (2 : ℚ) ^ tfRound (L.kq.clip (L.kfbw ij.2))| < 2 ^ 23 ∧ tfRound (L.kq.clip (L.kfbw ij.2)) ≤ fw
  bias : ∀ b, L.bias = some b → IsFloat32 (b (L.chan p)) ∧
    |b (L.chan p) * (2 : ℚ) ^ tfRound (maxFbw s.fbw (redElems L.qShape L.chLoc (L.chan p)))| < 2 ^ 23
  grid : fx + fw ≤ F
  act : ∀ e < prodL L.qShape, tfRound (s.fbw e) + 3 ≤ F
  three : 3 ≤ F
  sum : ((L.taps p).map fun ij => |x.getD ij.1 0 * L.qkernelF fl32 ij.2|).sum + |L.jitBiasF fl32 s.fbw (L.chan p)| +
    (2 : ℚ) ^ (-tfRound (s.fbw (L.elem p))) < 2 ^ 23 * (2 : ℚ) ^ (-F)

/-! ### helpers -/

theorem evalQ32_grid (st : ℤ) {fbw x : ℚ} (hx : IsFloat32 x) (hb : |x * p2 (tfRound fbw)| < 2 ^ 23) :
    ∃ n : ℤ, evalQF fl32 st fbw x = n * p2 (-tfRound fbw) := by
  by_cases h3 : st = 3
  · rw [h3, C57_floor fbw x hx]; exact evalQ_grid _ _ _
  · by_cases hbad : x * p2 (tfRound fbw) = 1 / 2 - 1 / 2 ^ 25
    · have h := C57_round_just_below_half st h3 fbw
      have hxe : x = (1 / 2 - 1 / 2 ^ 25 : ℚ) * (2 : ℚ) ^ (-tfRound fbw) := by
        rw [← hbad]; change x = x * p2 _ * p2 _; rw [mul_assoc, p2_mul_neg, mul_one]
      refine ⟨1, ?_⟩
      rw [Int.cast_one, one_mul, hxe]
      exact h.2.2
    · rw [C57_round_partial st h3 fbw x hx hb hbad]; exact evalQ_grid _ _ _

/-- numbers with few units are never just below half a unit -/
theorem not_badHalf {x : ℚ} {F f : ℤ} (hg : ∃ n : ℤ, x = n * p2 (-F)) (hb : |x| < 2 ^ 23 * p2 (-F)) :
    x * p2 f ≠ 1 / 2 - 1 / 2 ^ 25 := by
  intro h
  obtain ⟨n, rfl⟩ := hg
  have hp := p2_pos (-F)
  rw [abs_mul, abs_of_pos hp] at hb
  have hn : |(n : ℚ)| < 2 ^ 23 := lt_of_mul_lt_mul_right hb hp.le
  have e1 : (n : ℚ) * p2 (f - F + 25) = 2 ^ 24 - 1 := by
    have : p2 (f - F + 25) = p2 (-F) * p2 f * 2 ^ 25 := by
      rw [← p2_add, show f - F + 25 = (-F + f) + 25 by ring, p2_add]
      congr 1
    rw [this, ← mul_assoc, ← mul_assoc, h]; norm_num
  rcases le_or_gt 0 (f - F + 25) with h0 | h0
  · -- integer factor: parity
    obtain ⟨k, hk⟩ := Int.eq_ofNat_of_zero_le h0
    have hk' : f - F + 25 = (k : ℤ) := hk
    rw [hk', p2_natCast] at e1
    have e2 : n * 2 ^ k = 2 ^ 24 - 1 := by exact_mod_cast e1
    rcases Nat.eq_zero_or_pos k with hk0 | hk0
    · rw [hk0, pow_zero, mul_one] at e2
      rw [e2] at hn
      norm_num at hn
    · obtain ⟨j, rfl⟩ : ∃ j, k = j + 1 := ⟨k - 1, by omega⟩
      rw [pow_succ] at e2
      have : n * (2 ^ j * 2) = 2 * (n * 2 ^ j) := by ring
      rw [this] at e2
      omega
  · have hle : p2 (f - F + 25) ≤ 1 := by
      have := p2_le_p2 (show f - F + 25 ≤ 0 by omega)
      rwa [p2_zero] at this
    have h1 : (n : ℚ) * p2 (f - F + 25) ≤ |(n : ℚ)| * 1 :=
      mul_le_mul (le_abs_self _) hle (p2_pos _).le (abs_nonneg _)
    rw [e1, mul_one] at h1
    norm_num at h1 hn
    linarith

theorem evalQ32_eq (st : ℤ) {fbw x : ℚ} {F : ℤ} (hg : ∃ n : ℤ, x = n * p2 (-F)) (hb : |x| < 2 ^ 23 * p2 (-F))
    (hf : tfRound fbw ≤ F) : evalQF fl32 st fbw x = evalQ st fbw x := by
  have h24 : p2 (-F + 24) = 2 ^ 24 * p2 (-F) := by rw [p2_add, mul_comm]; congr 1
  have hp := p2_pos (-F)
  have hx : IsFloat32 x := isFloat32_of_grid hg (by rw [h24]; linarith)
  by_cases h3 : st = 3
  · rw [h3]; exact C57_floor fbw x hx
  · refine C57_round_partial st h3 fbw x hx ?_ (not_badHalf hg hb)
    change |x * p2 _| < _
    rw [abs_mul, abs_of_pos (p2_pos _)]
    calc |x| * p2 (tfRound fbw) < 2 ^ 23 * p2 (-F) * p2 (tfRound fbw) := mul_lt_mul_of_pos_right hb (p2_pos _)
      _ ≤ 2 ^ 23 * p2 (-F) * p2 F := mul_le_mul_of_nonneg_left (p2_le_p2 hf) (by positivity)
      _ = 2 ^ 23 := by rw [mul_assoc, p2_neg_mul, mul_one]

theorem gfixed32_zero_bits (x : ℚ) (k i : ℤ) (R : Rnd) (S : Sat) : gfixedQuantizerF fl32 x k 0 i R S = 0 := by
  unfold gfixedQuantizerF; simp [fl32_zero]

theorem gfixed32_eq {x : ℚ} {F k b i : ℤ} {R : Rnd} (S : Sat) (hR : R = .TRN ∨ R = .RND) (hg : ∃ n : ℤ, x = n * p2 (-F))
    (hb : |x| < 2 ^ 23 * p2 (-F)) (hk : k = 0 ∨ k = 1) (hb0 : 0 ≤ b) (hb22 : b ≤ 22) (hs : |x * p2 (b - i)| < 2 ^ 22) :
    gfixedQuantizerF fl32 x k b i R S = gfixedQuantizer x k b i R S := by
  have h24 : p2 (-F + 24) = 2 ^ 24 * p2 (-F) := by rw [p2_add, mul_comm]; congr 1
  have hp := p2_pos (-F)
  have hx : IsFloat32 x := isFloat32_of_grid hg (by rw [h24]; linarith)
  refine C57_fixed_point_partial x hx k b i hk hb0 hb22 R S hs (fun _ => not_badHalf hg hb) ?_ ?_
  · intro h; rcases hR with h' | h' <;> rw [h'] at h <;> cases h
  · intro h; rcases hR with h' | h' <;> rw [h'] at h <;> cases h

theorem init_apply32 (k b i : ℤ) (R : Rnd) (S : Sat) (x : ℚ) :
    (KBI.init k b i).applyF fl32 R S x = gfixedQuantizerF fl32 x k b i R S := by
  unfold KBI.init KBI.applyF
  split_ifs with h
  · rw [h]; simp only [gfixed32_zero_bits]
  · rfl

theorem abs_sum_le {α : Type} (l : List α) (g : α → ℚ) : |(l.map g).sum| ≤ (l.map fun a => |g a|).sum := by
  induction l with
  | nil => simp
  | cons a l ih =>
    simp only [List.map_cons, List.sum_cons]
    exact le_trans (abs_add_le _ _) (by linarith)

theorem grid_sum {α : Type} (l : List α) (g : α → ℚ) (e : ℤ) (h : ∀ a ∈ l, ∃ n : ℤ, g a = n * p2 e) :
    ∃ n : ℤ, (l.map g).sum = n * p2 e := by
  induction l with
  | nil => exact ⟨0, by simp⟩
  | cons a l ih =>
    obtain ⟨n, hn⟩ := h a (by simp)
    obtain ⟨m, hm⟩ := ih fun b hb => h b (by simp [hb])
    exact ⟨n + m, by simp only [List.map_cons, List.sum_cons, hn, hm]; push_cast; ring⟩

theorem maxFbw_mem (fbw : ℕ → ℚ) : ∀ {l : List ℕ}, l ≠ [] → ∃ e ∈ l, maxFbw fbw l = fbw e
  | [], h => absurd rfl h
  | [e], _ => ⟨e, by simp, rfl⟩
  | e :: e' :: l, _ => by
    obtain ⟨a, ha, hm⟩ := maxFbw_mem fbw (l := e' :: l) (by simp)
    change ∃ x ∈ _, max (fbw e) (maxFbw fbw (e' :: l)) = _
    rcases max_choice (fbw e) (maxFbw fbw (e' :: l)) with h | h
    · exact ⟨e, by simp, h⟩
    · exact ⟨a, List.mem_cons_of_mem _ ha, by rw [h, hm]⟩

/-! ### the layer with its float32-quantized weights -/

/-- the layer whose kernel and bias are the quantized ones -/
def LinLayer.twin (L : LinLayer) (s : QState) : LinLayer :=
  { L with kernel := L.qkernelF fl32, bias := L.bias.map fun b c => L.qbiasF fl32 L.chLoc s.fbw b c }

theorem LinLayer.WF.qbias32 {L : LinLayer} {s : QState} (h : L.WF s) {b : ℕ → ℚ} (hb : L.bias = some b) (c : ℕ) :
    L.qbiasF fl32 L.jitLoc s.fbw b c = L.qbiasF fl32 L.chLoc s.fbw b c := by
  rcases h.loc with h | ⟨h1, h2⟩ | h
  · rw [h]
  · unfold LinLayer.qbiasF; rw [redElems_one h1 h2, redElems_one h1 h2]
  · rw [hb] at h; cases h

theorem twin_wf {L : LinLayer} {s : QState} (h : L.WF s) : (L.twin s).WF s :=
  ⟨h.shape, h.clip, h.loc.imp_right fun h => h.imp_right fun h => by simp [LinLayer.twin, h]⟩

theorem twin_cover (L : LinLayer) (s : QState) : (L.twin s).canBiasCover = L.canBiasCover := by
  unfold LinLayer.canBiasCover LinLayer.twin
  cases L.bias <;> rfl

theorem twin_biasMask (L : LinLayer) (s : QState) (c : ℕ) : (L.twin s).biasMask s c = L.biasMask s c := rfl

section
variable {L : LinLayer} {s : QState} {x : List ℚ} {p : ℕ} {fx fw F : ℤ}

theorem twin_qkernel (h : L.Fits32 s x p fx fw F) {ij : ℕ × ℕ} (hij : ij ∈ L.taps p) :
    (L.twin s).qkernel ij.2 = L.qkernelF fl32 ij.2 := by
  obtain ⟨h1, h2, -⟩ := h.weight ij hij
  obtain ⟨n, hn⟩ := evalQ32_grid L.kq.strategy h1 h2
  change evalQ L.kq.strategy (L.kq.clip (L.kfbw ij.2)) (L.qkernelF fl32 ij.2) = _
  unfold LinLayer.qkernelF
  rw [hn, evalQ_of_grid]

theorem twin_qbias (h : L.Fits32 s x p fx fw F) {b : ℕ → ℚ} (hb : L.bias = some b) :
    (L.twin s).qbias L.chLoc s.fbw (fun c => L.qbiasF fl32 L.chLoc s.fbw b c) (L.chan p) = L.qbiasF fl32 L.chLoc s.fbw b (L.chan p) := by
  obtain ⟨h1, h2⟩ := h.bias b hb
  obtain ⟨n, hn⟩ := evalQ32_grid L.paq.strategy h1 h2
  change evalQ L.paq.strategy (maxFbw s.fbw (redElems L.qShape L.chLoc (L.chan p))) (L.qbiasF fl32 L.chLoc s.fbw b (L.chan p)) = _
  unfold LinLayer.qbiasF
  rw [hn, evalQ_of_grid]

theorem twin_jitBias (hw : L.WF s) (h : L.Fits32 s x p fx fw F) :
    (L.twin s).jitBias s.fbw (L.chan p) = L.jitBiasF fl32 s.fbw (L.chan p) := by
  unfold LinLayer.jitBias LinLayer.jitBiasF
  cases hb : L.bias with
  | none => simp [LinLayer.twin, hb]
  | some b =>
    have : (L.twin s).bias = some fun c => L.qbiasF fl32 L.chLoc s.fbw b c := by simp [LinLayer.twin, hb]
    rw [this]
    simp only
    rw [(twin_wf hw).qbias this, hw.qbias32 hb]
    exact twin_qbias h hb

/-- resolution of the bias -/
theorem bias_res (hw : L.WF s) (hp : p < prodL L.outShape) (h : L.Fits32 s x p fx fw F) :
    tfRound (maxFbw s.fbw (redElems L.qShape L.chLoc (L.chan p))) + 3 ≤ F := by
  have hm := elemOf_mem_redElems hw.shape L.chLoc hp
  obtain ⟨e, he, hmax⟩ := maxFbw_mem s.fbw (List.ne_nil_of_mem hm)
  have hlt : e < prodL L.qShape := by
    unfold redElems at he
    exact List.mem_range.mp (List.mem_filter.mp he).1
  have hc : L.chan p = chanOf L.outShape L.chLoc p := rfl
  rw [hc, hmax]
  exact h.act e hlt

theorem jitBias32_grid (hw : L.WF s) (hp : p < prodL L.outShape) (h : L.Fits32 s x p fx fw F) :
    ∃ n : ℤ, L.jitBiasF fl32 s.fbw (L.chan p) = n * p2 (-F) := by
  unfold LinLayer.jitBiasF
  cases hb : L.bias with
  | none => exact ⟨0, by simp⟩
  | some b =>
    simp only
    rw [hw.qbias32 hb]
    obtain ⟨h1, h2⟩ := h.bias b hb
    refine grid_coarse ?_ (evalQ32_grid L.paq.strategy h1 h2)
    have := bias_res hw hp h
    omega

/-- pre-activation with a bias on the grid -/
theorem preact32_eq (h : L.Fits32 s x p fx fw F) (order : ℕ → Acc (ℕ × ℕ)) (ho : (order p).terms.Perm (L.taps p))
    (b32 b : ℕ → ℚ) (hbe : b32 (L.chan p) = b (L.chan p)) (hb0 : L.bias = none → b (L.chan p) = 0)
    (hbg : ∃ n : ℤ, b (L.chan p) = n * p2 (-F))
    (hsum : ((L.taps p).map fun ij => |x.getD ij.1 0 * L.qkernelF fl32 ij.2|).sum + |b (L.chan p)| < 2 ^ 23 * p2 (-F)) :
    L.preactF fl32 order (L.qkernelF fl32) b32 x p = L.preact (L.qkernelF fl32) b x p ∧
      (∃ n : ℤ, L.preact (L.qkernelF fl32) b x p = n * p2 (-F)) ∧ |L.preact (L.qkernelF fl32) b x p| < 2 ^ 23 * p2 (-F) := by
  have hp := p2_pos (-F)
  have hwg : ∀ ij ∈ L.taps p, ∃ n : ℤ, L.qkernelF fl32 ij.2 = n * p2 (-(F - fx)) := by
    intro ij hij
    obtain ⟨h1, h2, h3⟩ := h.weight ij hij
    exact grid_coarse (by have := h.grid; omega) (evalQ32_grid L.kq.strategy h1 h2)
  have hrun := C58_any_order (fun ij : ℕ × ℕ => x.getD ij.1 0) (fun ij => L.qkernelF fl32 ij.2) fx (F - fx) (L.taps p)
    h.input hwg (by
      rw [show fx + (F - fx) = F by ring]
      change _ ≤ 2 ^ 24 * p2 (-F)
      have := abs_nonneg (b (L.chan p))
      linarith) (order p) ho
  have hpg : ∀ ij ∈ L.taps p, ∃ n : ℤ, x.getD ij.1 0 * L.qkernelF fl32 ij.2 = n * p2 (-F) := by
    intro ij hij
    obtain ⟨n, hn⟩ := h.input ij hij
    obtain ⟨m, hm⟩ := hwg ij hij
    refine ⟨n * m, ?_⟩
    rw [hn, hm]
    change (n : ℚ) * p2 _ * _ = _
    rw [show -F = -fx + -(F - fx) by ring, p2_add]
    push_cast; ring
  have hsg := grid_sum (L.taps p) _ _ hpg
  have hpre : L.preact (L.qkernelF fl32) b x p = ((L.taps p).map fun ij => x.getD ij.1 0 * L.qkernelF fl32 ij.2).sum + b (L.chan p) := rfl
  have hzg : ∃ n : ℤ, L.preact (L.qkernelF fl32) b x p = n * p2 (-F) := by
    obtain ⟨n, hn⟩ := hsg
    obtain ⟨m, hm⟩ := hbg
    exact ⟨n + m, by rw [hpre, hn, hm]; push_cast; ring⟩
  have hzb : |L.preact (L.qkernelF fl32) b x p| < 2 ^ 23 * p2 (-F) := by
    rw [hpre]
    have h1 := abs_add_le ((L.taps p).map fun ij => x.getD ij.1 0 * L.qkernelF fl32 ij.2).sum (b (L.chan p))
    have h2 := abs_sum_le (L.taps p) fun ij => x.getD ij.1 0 * L.qkernelF fl32 ij.2
    linarith
  refine ⟨?_, hzg, hzb⟩
  unfold LinLayer.preactF
  simp only
  rw [hrun]
  cases hb : L.bias with
  | none => simp only; rw [hpre, hb0 hb, add_zero]
  | some b' =>
    simp only
    rw [hbe, ← hpre]
    refine (isFloat32_of_grid hzg ?_).fl
    have h24 : p2 (-F + 24) = 2 ^ 24 * p2 (-F) := by rw [p2_add, mul_comm]; congr 1
    rw [h24]; linarith

theorem twin_preact (h : L.Fits32 s x p fx fw F) (b b' : ℕ → ℚ) (hb : b (L.chan p) = b' (L.chan p)) :
    (L.twin s).preact (L.twin s).qkernel b x p = L.preact (L.qkernelF fl32) b' x p := by
  unfold LinLayer.preact
  change ((L.taps p).map fun ij => x.getD ij.1 0 * (L.twin s).qkernel ij.2).sum + b (L.chan p) = _
  rw [hb]
  congr 2
  apply List.map_congr_left
  intro ij hij
  rw [twin_qkernel h hij]

/-- the HGQ layer in float32 is the exact layer with the quantized weights -/
theorem quant32_eq (hw : L.WF s) (hp : p < prodL L.outShape) (h : L.Fits32 s x p fx fw F)
    (order : ℕ → Acc (ℕ × ℕ)) (ho : (order p).terms.Perm (L.taps p)) :
    L.quantF fl32 s order x p = (L.twin s).quant s x p := by
  have hq := p2_pos (-tfRound (s.fbw (L.elem p)))
  obtain ⟨h1, h2, h3⟩ := preact32_eq h order ho (L.jitBiasF fl32 s.fbw) (L.jitBiasF fl32 s.fbw) rfl
    (fun hb => by unfold LinLayer.jitBiasF; rw [hb]) (jitBias32_grid hw hp h)
    (by have := h.sum; change _ + _ + p2 _ < 2 ^ 23 * p2 _ at this; linarith)
  unfold LinLayer.quantF LinLayer.quant LinLayer.pre
  rw [h1, twin_preact h _ _ (twin_jitBias hw h)]
  change evalQF fl32 _ (L.paq.clip (s.fbw (L.elem p))) _ = evalQ L.paq.strategy (L.paq.clip (s.fbw (L.elem p))) _
  rw [hw.clip]
  have := h.act _ (elemOf_lt hw.shape hp)
  exact evalQ32_eq _ h2 h3 (by unfold LinLayer.elem; omega)

/-- the bias of the proxy in float32 -/
theorem fusedQBias32_eq (hw : L.WF s) (hp : p < prodL L.outShape) (h : L.Fits32 s x p fx fw F) :
    L.fusedQBiasF fl32 s (L.chan p) = (L.twin s).fusedQBias s (L.chan p) ∧
      (∃ n : ℤ, L.fusedQBiasF fl32 s (L.chan p) = n * p2 (-F)) ∧
      |L.fusedQBiasF fl32 s (L.chan p)| ≤ |L.jitBiasF fl32 s.fbw (L.chan p)| + p2 (-tfRound (s.fbw (L.elem p))) := by
  have hq := p2_pos (-tfRound (s.fbw (L.elem p)))
  cases hb : L.bias with
  | none =>
    have e1 : L.fusedQBiasF fl32 s (L.chan p) = 0 := by unfold LinLayer.fusedQBiasF; rw [hb]
    have e2 : (L.twin s).fusedQBias s (L.chan p) = 0 := by unfold LinLayer.fusedQBias LinLayer.twin; simp [hb]
    rw [e1, e2]
    refine ⟨rfl, ⟨0, by simp⟩, ?_⟩
    rw [abs_zero]
    have := abs_nonneg (L.jitBiasF fl32 s.fbw (L.chan p))
    linarith
  | some b =>
    have hbias : (L.twin s).bias = some fun c => L.qbiasF fl32 L.chLoc s.fbw b c := by simp [LinLayer.twin, hb]
    have hj : L.jitBiasF fl32 s.fbw (L.chan p) = L.qbiasF fl32 L.chLoc s.fbw b (L.chan p) := by
      unfold LinLayer.jitBiasF; rw [hb]; simp only; rw [hw.qbias32 hb]
    have hbq := twin_qbias h hb
    obtain ⟨h1, h2⟩ := h.bias b hb
    obtain ⟨n, hn⟩ := evalQ32_grid L.paq.strategy h1 h2
    have hres := bias_res hw hp h
    have hng : ∃ m : ℤ, L.qbiasF fl32 L.chLoc s.fbw b (L.chan p) = m * p2 (-F) := hj ▸ jitBias32_grid hw hp h
    rw [hj]
    set B := L.qbiasF fl32 L.chLoc s.fbw b (L.chan p) with hB
    set f := tfRound (maxFbw s.fbw (redElems L.qShape L.chLoc (L.chan p))) with hf
    have hBn : B = n * p2 (-f) := hn
    have e1 : L.fusedQBiasF fl32 s (L.chan p) = if L.biasMask s (L.chan p) then
        (if L.paq.strategy ≠ 3 ∧ L.canBiasCover then fl32 (p2 (-f - 1) + B) else B) else 0 := by
      unfold LinLayer.fusedQBiasF; rw [hb]
    have e2 : (L.twin s).fusedQBias s (L.chan p) = if L.biasMask s (L.chan p) then
        (if L.paq.strategy ≠ 3 ∧ L.canBiasCover then p2 (-f - 1) + B else B) else 0 := by
      unfold LinLayer.fusedQBias
      rw [hbias]
      simp only
      rw [twin_cover, twin_biasMask]
      change (if _ then if L.paq.strategy ≠ 3 ∧ _ then p2 (-f - 1) + (L.twin s).qbias L.chLoc s.fbw _ _ else
        (L.twin s).qbias L.chLoc s.fbw _ _ else 0) = _
      rw [hbq]
      rfl
    by_cases hcov : L.paq.strategy ≠ 3 ∧ L.canBiasCover = true
    · have hfe : f = tfRound (s.fbw (L.elem p)) := by
        have := (C22_one_bitwidth_per_channel _ _ _ L.chLoc hw.shape hcov.2 p p hp hp rfl s.fbw).2
        rw [hf]; congr 1
      have hhalf : p2 (-f) = 2 * p2 (-f - 1) := by rw [p2_neg_pred]; ring
      have hsmall : |p2 (-f - 1) + B| ≤ |B| + p2 (-f) := by
        have := abs_add_le (p2 (-f - 1)) B
        rw [abs_of_pos (p2_pos _)] at this
        have := p2_pos (-f - 1)
        linarith
      have hsum := h.sum
      rw [hj, ← hfe] at hsum
      change _ + _ + p2 (-f) < 2 ^ 23 * p2 (-F) at hsum
      have hnn : 0 ≤ ((L.taps p).map fun ij => |x.getD ij.1 0 * L.qkernelF fl32 ij.2|).sum :=
        le_trans (abs_nonneg _) (abs_sum_le _ _)
      have hFf : p2 (-F) ≤ p2 (-f - 1) := p2_le_p2 (by omega)
      have hfl : fl32 (p2 (-f - 1) + B) = p2 (-f - 1) + B := by
        refine (isFloat32_of_grid (e := -f - 1) ⟨1 + 2 * n, ?_⟩ ?_).fl
        · rw [hBn, hhalf]; push_cast; ring
        · rw [p2_add, mul_comm]
          have : p2 24 = 2 ^ 24 := by unfold p2; norm_num
          rw [this]
          have := p2_pos (-f - 1)
          linarith
      rw [e1, e2, if_pos hcov, if_pos hcov, hfl]
      refine ⟨rfl, ?_, ?_⟩
      · split_ifs
        · refine grid_coarse (b := -f - 1) (by omega) ⟨1 + 2 * n, ?_⟩
          rw [hBn, hhalf]; push_cast; ring
        · exact ⟨0, by simp⟩
      · rw [← hfe]
        split_ifs
        · exact hsmall
        · rw [abs_zero]; have := abs_nonneg B; have := p2_pos (-f); linarith
    · rw [e1, e2, if_neg hcov, if_neg hcov]
      refine ⟨rfl, ?_, ?_⟩
      · split_ifs
        · exact hng
        · exact ⟨0, by simp⟩
      · split_ifs
        · linarith
        · rw [abs_zero]; have := abs_nonneg B; linarith

/-- the Keras layer of the proxy in float32 -/
theorem klayer32_eq (hw : L.WF s) (hp : p < prodL L.outShape) (h : L.Fits32 s x p fx fw F)
    (order : ℕ → Acc (ℕ × ℕ)) (ho : (order p).terms.Perm (L.taps p)) :
    L.preactF fl32 order (L.qkernelF fl32) (L.fusedQBiasF fl32 s) x p = (L.twin s).klayer s x p ∧
      (∃ n : ℤ, (L.twin s).klayer s x p = n * p2 (-F)) ∧ |(L.twin s).klayer s x p| < 2 ^ 23 * p2 (-F) := by
  obtain ⟨b1, b2, b3⟩ := fusedQBias32_eq hw hp h
  obtain ⟨h1, h2, h3⟩ := preact32_eq h order ho (L.fusedQBiasF fl32 s) (L.fusedQBiasF fl32 s) rfl
    (fun hb => by unfold LinLayer.fusedQBiasF; rw [hb]) b2
    (by have := h.sum; change _ + _ + p2 _ < 2 ^ 23 * p2 _ at this; linarith)
  have e : (L.twin s).klayer s x p = L.preact (L.qkernelF fl32) (L.fusedQBiasF fl32 s) x p :=
    twin_preact h _ _ b1.symm
  rw [e]
  exact ⟨h1, h2, h3⟩

end

/-- the fractional bits of the generated types are activation bitwidths or 0 -/
theorem bitsExact_f_le {lo hi fbw : ℚ} {posOnly : Bool} {F : ℤ} (hf : -32 ≤ tfRound fbw) (h3 : 3 ≤ F) (hF : tfRound fbw + 3 ≤ F) :
    (bitsExact lo hi fbw posOnly).f + 3 ≤ F := by
  rcases (bitsExact_wf lo hi fbw posOnly hf).2.2 with h | h
  · rw [h]; exact hF
  · rw [h]; simpa using h3

theorem scaled_lt {z : ℚ} {F f : ℤ} (hb : |z| < 2 ^ 23 * p2 (-F)) (hf : f + 1 ≤ F) : |z * p2 f| < 2 ^ 22 := by
  rw [abs_mul, abs_of_pos (p2_pos f)]
  have hp := p2_pos (-F)
  calc |z| * p2 f < 2 ^ 23 * p2 (-F) * p2 f := mul_lt_mul_of_pos_right hb (p2_pos _)
    _ ≤ 2 ^ 23 * p2 (-F) * p2 (F - 1) := mul_le_mul_of_nonneg_left (p2_le_p2 (by omega)) (by positivity)
    _ = 2 ^ 22 := by
      rw [mul_assoc, ← p2_add, show -F + (F - 1) = -1 by ring]
      unfold p2; norm_num

theorem proxyRnd_cases (st : ℤ) (c : Bool) : proxyRnd st c = .TRN ∨ proxyRnd st c = .RND := by
  unfold proxyRnd; split_ifs <;> simp

/-! ### C78 -/

/-- **C78**: a dense or convolution layer (any kernel, bias, bitwidths, connectivity, with or without relu, any rounding strategy, both
overflow modes), evaluated in float32, accumulating in any order; and its proxy, evaluated in float32, accumulating in any other order.
If the magnitudes fit (`Fits32`), the generated types have at most 22 bits and the HGQ value is inside the recorded range, both return
the same float32 number. -/
theorem C78_layer_eq_proxy (L : LinLayer) (s : QState) (hw : L.WF s) (aggressive : Bool) (x : List ℚ) (p : ℕ)
    (hp : p < prodL L.outShape) (fx fw F : ℤ) (hfit : L.Fits32 s x p fx fw F)
    (order order' : ℕ → Acc (ℕ × ℕ)) (ho : (order p).terms.Perm (L.taps p)) (ho' : (order' p).terms.Perm (L.taps p))
    (hbits : (L.bitsAt s L.reluAct p).k + (L.bitsAt s L.reluAct p).i + (L.bitsAt s L.reluAct p).f ≤ 22)
    (hrelu : L.reluAct = true → (L.reluKif s).k + (L.reluKif s).i + (L.reluKif s).f ≤ 21)
    (lo hi : ℚ) (ht : Traced s (L.elem p) lo hi) (hall : ∀ e < prodL L.qShape, -32 ≤ s.fbw e)
    (h1 : lo ≤ L.quantF fl32 s order x p) (h2 : L.quantF fl32 s order x p ≤ hi) :
    L.proxyOutF fl32 s (proxySat aggressive) order' x p = L.post (L.quantF fl32 s order x p) := by
  have hqe := quant32_eq hw hp hfit order ho
  obtain ⟨hz, hzg, hzb⟩ := klayer32_eq hw hp hfit order' ho'
  have hw' := twin_wf hw
  have hR := proxyRnd_cases L.paq.strategy L.canBiasCover
  rw [hqe] at h1 h2 ⊢
  have hrnd : -32 ≤ tfRound (s.fbw (L.elem p)) := tfRound_ge (by exact_mod_cast ht.fb)
  have hbe : ∀ po, L.bitsAt s po p = bitsExact lo hi (s.fbw (L.elem p)) po := by
    intro po; unfold LinLayer.bitsAt; rw [ht.mn, ht.mx, WithTop.untopD_coe, WithBot.unbotD_coe]
  have hact := hfit.act _ (elemOf_lt hw.shape hp)
  change tfRound (s.fbw (L.elem p)) + 3 ≤ F at hact
  have hpost : ∀ v, (L.twin s).post v = L.post v := fun _ => rfl
  rw [← hpost]
  cases hr : L.reluAct with
  | false =>
    rw [← C24_linear_eq_proxy (L.twin s) s hw' hr aggressive x p hp lo hi ht h1 h2]
    unfold LinLayer.proxyOutF LinLayer.proxyOut
    have hr' : (L.twin s).reluAct = false := hr
    simp only [hr, hr', Bool.false_eq_true, if_false]
    rw [hz, twin_cover]
    rw [hr] at hbits
    change (KBI.init _ _ _).applyF fl32 _ _ _ = (KBI.init (L.bitsAt s false p).k _ _).apply _ _ _
    rw [init_apply, init_apply32]
    change _ = gfixedQuantizer _ _ ((L.bitsAt s false p).k + (L.bitsAt s false p).i + (L.bitsAt s false p).f)
      ((L.bitsAt s false p).k + (L.bitsAt s false p).i) (proxyRnd L.paq.strategy L.canBiasCover) _
    rw [hbe] at hbits ⊢
    have hwf := bitsExact_wf lo hi (s.fbw (L.elem p)) false hrnd
    have hf3 := bitsExact_f_le (lo := lo) (hi := hi) (posOnly := false) hrnd hfit.three hact
    refine gfixed32_eq _ hR hzg hzb hwf.1 hwf.2.1 hbits ?_
    rw [add_sub_cancel_left]
    exact scaled_lt hzb (by omega)
  | true =>
    rw [← C25_relu_eq_proxy (L.twin s) s hw' hr aggressive x p hp lo hi ht hall h1 h2]
    unfold LinLayer.proxyOutF LinLayer.proxyOut
    have hr' : (L.twin s).reluAct = true := hr
    simp only [hr, hr', if_true]
    rw [hz, twin_cover]
    rw [hr] at hbits
    have htk : (L.twin s).reluKif s = L.reluKif s := rfl
    have hts : (L.twin s).paq.strategy = L.paq.strategy := rfl
    have htb : (L.twin s).bitsAt s true p = L.bitsAt s true p := rfl
    rw [htk, hts, htb]
    set R := proxyRnd L.paq.strategy L.canBiasCover with hRdef
    set t := L.reluKif s with htdef
    have ctx := reluCtx_of hw' hp ht h1 h2 hall
    change ReluCtx lo hi (s.fbw (L.elem p)) _ t.k t.i t.f at ctx
    obtain ⟨fAdd, hfa, hfa0, hfa1⟩ : ∃ fAdd : ℤ, (if R = .TRN then (0 : ℤ) else if R = .RND then 1 else 2) = fAdd ∧ 0 ≤ fAdd ∧ fAdd ≤ 1 := by
      rcases hR with h | h <;> rw [h]
      · exact ⟨0, by simp, by norm_num, by norm_num⟩
      · exact ⟨1, by simp, by norm_num, by norm_num⟩
    rw [hfa]
    have htf : t.f + 3 ≤ F := by
      have he := elemOf_lt hw.shape hp
      have hne : ((List.range (prodL L.qShape)).map fun e =>
          bitsExact ((s.mn e).untopD 0) ((s.mx e).unbotD 0) (s.fbw e) false).map (·.f) ≠ [] := by
        simp only [ne_eq, List.map_eq_nil_iff, List.range_eq_nil]
        omega
      obtain ⟨b, hb, hbf⟩ := List.mem_map.mp (listMax_mem hne)
      obtain ⟨e, he', rfl⟩ := List.mem_map.mp hb
      change listMax _ + 3 ≤ F
      rw [← hbf]
      have hel := List.mem_range.mp he'
      exact bitsExact_f_le (tfRound_ge (by exact_mod_cast hall e hel)) hfit.three (hfit.act e hel)
    have hwidth : 0 ≤ t.k + t.i + t.f := by
      have := (bitsExact_wf lo hi (s.fbw (L.elem p)) false hrnd).2.1
      have := ctx.hk; have := ctx.hi; have := ctx.hF
      omega
    have ht21 := hrelu hr
    -- first quantizer
    have hq1 : (KBI.init t.k (t.k + t.i + t.f + fAdd) (t.k + t.i)).applyF fl32 .TRN (proxySat aggressive) ((L.twin s).klayer s x p) =
        (KBI.init t.k (t.k + t.i + t.f + fAdd) (t.k + t.i)).apply .TRN (proxySat aggressive) ((L.twin s).klayer s x p) := by
      rw [init_apply, init_apply32]
      refine gfixed32_eq _ (.inl rfl) hzg hzb ctx.hK (by omega) (by omega) ?_
      rw [show t.k + t.i + t.f + fAdd - (t.k + t.i) = t.f + fAdd by ring]
      exact scaled_lt hzb (by omega)
    rw [hq1]
    -- second quantizer
    rw [init_apply]
    change (KBI.init _ _ _).applyF fl32 _ _ _ = (KBI.init _ _ _).apply _ _ _
    rw [init_apply, init_apply32]
    rw [hbe] at hbits ⊢
    have hwf := bitsExact_wf lo hi (s.fbw (L.elem p)) true hrnd
    rcases le_or_gt hi 0 with hneg | hpos
    · rw [bitsExact_pos_zero hrnd hneg, gfixed32_zero_bits, gfixed_zero_bits]
    · have hfF := (ctx.facts hpos).1
      obtain ⟨w, hwd⟩ := Int.eq_ofNat_of_zero_le (show 0 ≤ t.k + t.i + t.f + fAdd by omega)
      have hwd' : t.k + t.i + t.f + fAdd = (w : ℤ) := hwd
      obtain ⟨sg, hsg⟩ : ∃ sg : Bool, t.k = sg.toInt := by
        rcases ctx.hK with h | h
        · exact ⟨false, by rw [h]; rfl⟩
        · exact ⟨true, by rw [h]; rfl⟩
      have htype := C01_output_in_type ((L.twin s).klayer s x p) sg w (t.k + t.i) .TRN (proxySat aggressive)
      rw [← hsg, ← hwd'] at htype
      have hy0 : w = 0 → gfixedQuantizer ((L.twin s).klayer s x p) t.k (t.k + t.i + t.f + fAdd) (t.k + t.i) .TRN (proxySat aggressive) = 0 := by
        intro h0; rw [hwd', h0, Nat.cast_zero, gfixed_zero_bits]
      generalize gfixedQuantizer ((L.twin s).klayer s x p) t.k (t.k + t.i + t.f + fAdd) (t.k + t.i) .TRN (proxySat aggressive) = y at htype hy0 ⊢
      have hy : ∃ n : ℤ, relu y = n * p2 (-(t.f + fAdd)) ∧ 0 ≤ n ∧ n < 2 ^ 22 := by
        rcases Nat.eq_zero_or_pos w with h0 | h0
        · exact ⟨0, by rw [hy0 h0]; simp [relu], le_rfl, by norm_num⟩
        · obtain ⟨n, hn, -, hn2⟩ := (isApFixed_iff h0 _ _).mp htype
          have hexp : t.k + t.i - (w : ℤ) = -(t.f + fAdd) := by omega
          rw [hexp] at hn
          have hw22 : w ≤ 22 := by omega
          have hpw : (2 : ℤ) ^ w ≤ 2 ^ 22 := pow_le_pow_right₀ (by norm_num) hw22
          have hpw1 : (2 : ℤ) ^ (w - 1) ≤ 2 ^ 22 := pow_le_pow_right₀ (by norm_num) (by omega)
          have hn3 : n < 2 ^ 22 := by
            unfold highB at hn2
            split_ifs at hn2 <;> omega
          refine ⟨max n 0, ?_, le_max_right _ _, max_lt hn3 (by norm_num)⟩
          unfold relu
          rw [hn]
          push_cast
          rw [max_mul_of_nonneg _ _ (p2_pos _).le, zero_mul]
      obtain ⟨n, hn, hn0, hn22⟩ := hy
      have hnq : |(n : ℚ)| < 2 ^ 22 := by
        rw [abs_of_nonneg (by exact_mod_cast hn0)]
        exact_mod_cast hn22
      have hp2 := p2_pos (-(t.f + fAdd))
      rcases hwf.2.2 with hfe | hze
      swap
      · rw [hze, show (0 : ℤ) + 0 + 0 = 0 from rfl, gfixed32_zero_bits, gfixed_zero_bits]
      refine gfixed32_eq (F := t.f + fAdd) _ hR ⟨n, hn⟩ ?_ hwf.1 hwf.2.1 hbits ?_
      · rw [hn, abs_mul, abs_of_pos hp2]
        exact mul_lt_mul_of_pos_right (by linarith) hp2
      · rw [add_sub_cancel_left]
        have hbf : (bitsExact lo hi (s.fbw (L.elem p)) true).f ≤ t.f + fAdd := by
          omega
        rw [hn, mul_assoc, ← p2_add, abs_mul, abs_of_pos (p2_pos _)]
        have : p2 (-(t.f + fAdd) + (bitsExact lo hi (s.fbw (L.elem p)) true).f) ≤ 1 := by
          have := p2_le_p2 (show -(t.f + fAdd) + (bitsExact lo hi (s.fbw (L.elem p)) true).f ≤ 0 by omega)
          rwa [p2_zero] at this
        calc |(n : ℚ)| * _ ≤ |(n : ℚ)| * 1 := mul_le_mul_of_nonneg_left this (abs_nonneg _)
          _ < 2 ^ 22 := by linarith

/-- **C78**, the value itself: if moreover no weight and no bias is the largest float32 number below half a unit (`C57_round_just_below_half`),
the float32 value of the HGQ layer is the value in exact arithmetic. -/
theorem C78_layer_exact (L : LinLayer) (s : QState) (hw : L.WF s) (x : List ℚ) (p : ℕ)
    (hp : p < prodL L.outShape) (fx fw F : ℤ) (hfit : L.Fits32 s x p fx fw F)
    (order : ℕ → Acc (ℕ × ℕ)) (ho : (order p).terms.Perm (L.taps p))
    (hk : ∀ ij ∈ L.taps p, L.kernel ij.2 * (2 : ℚ) ^ tfRound (L.kq.clip (L.kfbw ij.2)) ≠ 1 / 2 - 1 / 2 ^ 25)
    (hb : ∀ b, L.bias = some b →
      b (L.chan p) * (2 : ℚ) ^ tfRound (maxFbw s.fbw (redElems L.qShape L.chLoc (L.chan p))) ≠ 1 / 2 - 1 / 2 ^ 25) :
    L.quantF fl32 s order x p = L.quant s x p := by
  have hev : ∀ st fbw y, IsFloat32 y → |y * p2 (tfRound fbw)| < 2 ^ 23 → y * p2 (tfRound fbw) ≠ 1 / 2 - 1 / 2 ^ 25 →
      evalQF fl32 st fbw y = evalQ st fbw y := by
    intro st fbw y h1 h2 h3
    by_cases h : st = 3
    · rw [h]; exact C57_floor fbw y h1
    · exact C57_round_partial st h fbw y h1 h2 h3
  rw [quant32_eq hw hp hfit order ho]
  have hpre : (L.twin s).pre s.fbw x p = L.pre s.fbw x p := by
    unfold LinLayer.pre
    have hjit : L.jitBiasF fl32 s.fbw (L.chan p) = L.jitBias s.fbw (L.chan p) := by
      unfold LinLayer.jitBiasF LinLayer.jitBias
      cases hb' : L.bias with
      | none => rfl
      | some b =>
        simp only
        rw [hw.qbias32 hb', hw.qbias hb']
        exact hev _ _ _ (hfit.bias b hb').1 (hfit.bias b hb').2 (hb b hb')
    rw [twin_preact hfit _ (L.jitBias s.fbw) ((twin_jitBias hw hfit).trans hjit)]
    unfold LinLayer.preact
    congr 2
    apply List.map_congr_left
    intro ij hij
    obtain ⟨h1, h2, -⟩ := hfit.weight ij hij
    have : L.qkernelF fl32 ij.2 = L.qkernel ij.2 := hev _ _ _ h1 h2 (hk ij hij)
    rw [this]
  unfold LinLayer.quant
  rw [hpre]
  rfl

/-! ### the hypotheses are met by a relu layer with bias; the bound is needed -/

/-- accumulation from the left, and with a fused multiply-add from the right -/
def exLeft (p : ℕ) : Acc (ℕ × ℕ) := .add (.mul (0, p)) (.mul (1, 2 + p))
def exRight (p : ℕ) : Acc (ℕ × ℕ) := .fma (1, 2 + p) (.mul (0, p))

theorem exDense_fits (r : Bool) (p : ℕ) (hp : p < 2) : (exDense 0 [2] r).Fits32 exState [1, 1 / 4] p 2 3 5 := by
  have htaps : (exDense 0 [2] r).taps p = [(0, p), (1, 2 + p)] := rfl
  have hk : ∀ j, ∃ n : ℤ, |n| < 2 ^ 10 ∧ (exDense 0 [2] r).kernel j = n * p2 (-3) := by
    intro j
    change ∃ n : ℤ, |n| < 2 ^ 10 ∧ [1, -3 / 2, 1 / 2, 1].getD j (0 : ℚ) = n * p2 (-3)
    match j with
    | 0 => exact ⟨8, by norm_num, by decide +kernel⟩
    | 1 => exact ⟨-12, by norm_num, by decide +kernel⟩
    | 2 => exact ⟨4, by norm_num, by decide +kernel⟩
    | 3 => exact ⟨8, by norm_num, by decide +kernel⟩
    | j + 4 => exact ⟨0, by norm_num, by simp⟩
  have hf : ∀ j, tfRound ((exDense 0 [2] r).kq.clip ((exDense 0 [2] r).kfbw j)) = 3 := by
    intro j; change tfRound 3 = 3; decide +kernel
  have hfl : ∀ j, IsFloat32 ((exDense 0 [2] r).kernel j) ∧ |(exDense 0 [2] r).kernel j * (2 : ℚ) ^ (3 : ℤ)| < 2 ^ 23 := by
    intro j
    obtain ⟨n, hn, he⟩ := hk j
    rw [he]
    refine ⟨(isFloat32_int n (by linarith)).mul_p2 _, ?_⟩
    change |(n : ℚ) * p2 (-3) * p2 3| < _
    rw [mul_assoc, p2_neg_mul, mul_one]
    have : ((|n| : ℤ) : ℚ) < ((2 ^ 10 : ℤ) : ℚ) := by exact_mod_cast hn
    rw [Int.cast_abs] at this
    push_cast at this
    linarith
  refine ⟨?_, ?_, ?_, by norm_num, ?_, by norm_num, ?_⟩
  · intro ij hij
    rw [htaps] at hij
    simp only [List.mem_cons, List.not_mem_nil, or_false] at hij
    rcases hij with rfl | rfl
    · exact ⟨4, by change (1 : ℚ) = _; norm_num⟩
    · exact ⟨1, by change (1 / 4 : ℚ) = _; norm_num⟩
  · intro ij _
    rw [hf]
    exact ⟨(hfl _).1, (hfl _).2, le_rfl⟩
  · intro b hb
    cases hb
    rcases (show p = 0 ∨ p = 1 by omega) with rfl | rfl
    · exact ⟨⟨1, -2, by norm_num, by cases r <;> decide +kernel⟩, by cases r <;> decide +kernel⟩
    · exact ⟨⟨5, -3, by norm_num, by cases r <;> decide +kernel⟩, by cases r <;> decide +kernel⟩
  · intro e _
    unfold exState; simp only; split_ifs <;> decide +kernel
  · rcases (show p = 0 ∨ p = 1 by omega) with rfl | rfl <;> cases r <;> decide +kernel

example (p : ℕ) (hp : p < 2) (r aggressive : Bool) :
    (exDense 0 [2] r).proxyOutF fl32 exState (proxySat aggressive) exRight [1, 1 / 4] p =
      (exDense 0 [2] r).post ((exDense 0 [2] r).quantF fl32 exState exLeft [1, 1 / 4] p) := by
  have hp' : p < prodL (exDense 0 [2] r).outShape := by change p < 2; exact hp
  have hR : (exRight p).terms.Perm ((exDense 0 [2] r).taps p) := List.Perm.swap _ _ _
  rcases (show p = 0 ∨ p = 1 by omega) with rfl | rfl
  · exact C78_layer_eq_proxy _ _ (exDense_wf 0 r) aggressive _ 0 hp' 2 3 5 (exDense_fits r 0 hp) exLeft exRight (List.Perm.refl _) hR
      (by cases r <;> decide +kernel) (by cases r <;> decide +kernel) _ _ exState_traced0
      (by intro e _; unfold exState; simp only; split_ifs <;> norm_num) (by cases r <;> decide +kernel) (by cases r <;> decide +kernel)
  · exact C78_layer_eq_proxy _ _ (exDense_wf 0 r) aggressive _ 1 hp' 2 3 5 (exDense_fits r 1 hp) exLeft exRight (List.Perm.refl _) hR
      (by cases r <;> decide +kernel) (by cases r <;> decide +kernel) _ _ exState_traced1
      (by intro e _; unfold exState; simp only; split_ifs <;> norm_num) (by cases r <;> decide +kernel) (by cases r <;> decide +kernel)

example : (exDense 0 [2] true).quantF fl32 exState exLeft [1, 1 / 4] 0 = 3 / 2 ∧
    (exDense 0 [2] true).proxyOutF fl32 exState .WRAP exRight [1, 1 / 4] 0 = 3 / 2 := by decide +kernel

/-- a layer with four products -/
def exFour : LinLayer := { exWrap with taps := fun _ => [(0, 0), (1, 0), (2, 0), (3, 0)], reluAct := false }

/-- Without the bound on the magnitudes the float32 layer and its float32 proxy may differ although the value is in the recorded range
and the types have 3 bits: products 2^24, 1, 1, -2^24, accumulated from the left by the proxy and pairwise by the layer. -/
theorem C78_bound_needed :
    let x : List ℚ := [2 ^ 24, 1, 1, -2 ^ 24]
    let order : ℕ → Acc (ℕ × ℕ) := fun _ => .add (.add (.mul (1, 0)) (.mul (2, 0))) (.add (.mul (0, 0)) (.mul (3, 0)))
    let order' : ℕ → Acc (ℕ × ℕ) := fun _ => .fma (3, 0) (.fma (2, 0) (.fma (1, 0) (.mul (0, 0))))
    Traced exWrapState (exFour.elem 0) (-4) 3 ∧ exFour.bitsAt exWrapState false 0 = ⟨1, 2, 0⟩ ∧
      exFour.quantF fl32 exWrapState order x 0 = 2 ∧ exFour.quant exWrapState x 0 = 2 ∧
      ∀ aggressive, exFour.proxyOutF fl32 exWrapState (proxySat aggressive) order' x 0 = 0 := by
  refine ⟨⟨rfl, rfl, by norm_num, ⟨-4, by decide +kernel⟩, ⟨3, by decide +kernel⟩, by norm_num, by norm_num,
    by decide +kernel⟩, by decide +kernel, by decide +kernel, by decide +kernel, by decide +kernel⟩

end HGQ
