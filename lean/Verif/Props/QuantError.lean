import Verif.Lemmas.QuantError
import Verif.Model.PrecGraph

/-!
C108: the quantized model approaches the model without quantizers: every further bit halves the error bound.

`Spec/FloatNet.lean` says what a network without quantizers computes (`FNet.eval`), when two tensors differ by at most `δ` (`Close δ`), and
when an activation function or passive layer is bounded and Lipschitz continuous on bounded inputs (`Tame`). `net.float` is the
network left over when the quantizers are removed; `Node.Fine F`: all bitwidths of outputs and used weights are at least `F`.
-/

namespace HGQ
open Spec

/-- **C108**: for every network without quantizers and every bound of the inputs there is a constant `K` such that, whatever the quantizers,
rounding strategies and bitwidths (at least `F`), every tensor of the HGQ model at inference differs by at most `K * 2^-F` from that of the
network without quantizers. -/
theorem C108_error_bound (fnet : FNet) (ht : fnet.Tame) (B : ℚ) (hB : 0 ≤ B) : ∃ K : ℚ, ∀ (net : Net), net.float = fnet →
    ∀ (F : ℕ) (ss : List QState), net.All Node.WF ss → net.All (Node.Fine F) ss → ∀ x : List (List ℚ), (∀ t ∈ x, Within B t) →
      ∃ env, net.predict ss x = .ok env ∧ List.Forall₂ (Close (K / 2 ^ F)) env (fnet.eval x) := by
  obtain ⟨K, -, h⟩ := FNet.error fnet ht B 0 hB le_rfl
  refine ⟨K, fun net hnet F ss hw hf x hx => ⟨_, predict_eq net ss (all_imp (fun _ _ h => h.clip) hw) x, ?_⟩⟩
  have := h (p2 (-(F : ℤ))) (p2_pos _).le (p2_neg_nat_le F) x x _ (hnet ▸ Net.evalEnv_perturbed hw hf x)
    (List.forall₂_same.mpr fun t _ => ⟨rfl, fun p => by simp⟩) hx
  rwa [show K * p2 (-(F : ℤ)) = K / 2 ^ F by unfold p2; rw [zpow_neg, zpow_natCast]; rfl] at this

/-- `Fine` only looks at the bitwidths -/
theorem fine_congr {F : ℕ} : ∀ {net : Net} {ss ss' : List QState}, net.All (Node.Fine F) ss → ss'.map QState.fbw = ss.map QState.fbw →
    net.All (Node.Fine F) ss'
  | [], [], [], _, _ => trivial
  | (_, _) :: _, _ :: _, s' :: _, h, he => by
    simp only [List.map_cons, List.cons.injEq] at he
    exact ⟨⟨by rw [he.1]; exact h.1.out, h.1.weight⟩, fine_congr h.2 he.2⟩
  | [], [], _ :: _, _, he => by simp at he
  | (_, _) :: _, _ :: _, [], _, he => by simp at he

/-- **C108**, deployed models: after calibration on any data set of bounded samples, the proxy differs by at most `K * 2^-F` from the
network without quantizers on all calibration samples, with the same constant for all data sets and quantizers. -/
theorem C108_deployed (fnet : FNet) (ht : fnet.Tame) (B : ℚ) (hB : 0 ≤ B) : ∃ K : ℚ, ∀ (net : Net), net.float = fnet →
    ∀ (F : ℕ) (ss : List QState), net.All Node.WF ss → net.All (Node.Fine F) ss → ∀ (bsz : ℕ) (data : List (List (List ℚ)))
      (aggressive : Bool), (∀ x ∈ data, ∀ t ∈ x, Within B t) → 0 < bsz → data ≠ [] →
      ∃ ss' preds, net.trace ss bsz data = .ok (ss', preds) ∧ (net.All Bounded ss' →
        ∃ pm, net.toProxy (proxySat aggressive) ss' = .ok pm ∧
          ∀ x ∈ data, List.Forall₂ (Close (K / 2 ^ F)) (pm.eval x) (fnet.eval x)) := by
  obtain ⟨K, h⟩ := C108_error_bound fnet ht B hB
  refine ⟨K, fun net hnet F ss hw hf bsz data aggressive hx hb hne => ?_⟩
  obtain ⟨ss', h1, h2, h3, -⟩ := trace_spec net ss bsz data hw hb
  obtain ⟨ss'', preds, g1, -, g3⟩ := C26_bit_accurate net ss bsz data aggressive hw hb hne
  rw [h1] at g1
  cases g1
  refine ⟨ss', _, h1, fun hbd => ?_⟩
  obtain ⟨pm, p1, -, p3⟩ := g3 hbd
  refine ⟨pm, p1, fun x hxd => ?_⟩
  obtain ⟨env, e1, e2⟩ := h net hnet F ss' h3 (fine_congr hf h2) x (hx x hxd)
  rw [p3 x hxd] at e1
  cases e1
  exact e2

/-- **C108**: every accuracy is reached with enough bits. -/
theorem C108_any_accuracy (fnet : FNet) (ht : fnet.Tame) (B : ℚ) (hB : 0 ≤ B) (ε : ℚ) (hε : 0 < ε) : ∃ F₀ : ℕ, ∀ (net : Net), net.float = fnet →
    ∀ (ss : List QState), net.All Node.WF ss → net.All (Node.Fine F₀) ss → ∀ x : List (List ℚ), (∀ t ∈ x, Within B t) →
      ∃ env, net.predict ss x = .ok env ∧ List.Forall₂ (Close ε) env (fnet.eval x) := by
  obtain ⟨K, h⟩ := C108_error_bound fnet ht B hB
  obtain ⟨n, hn⟩ : ∃ n : ℕ, K / ε < n := ⟨(flr (K / ε) + 1).toNat, by
    have h1 := lt_flr_add_one (K / ε)
    have h2 : ((flr (K / ε) + 1 : ℤ) : ℚ) ≤ ((flr (K / ε) + 1).toNat : ℤ) := by exact_mod_cast Int.self_le_toNat _
    push_cast at h2
    exact_mod_cast h1.trans_le h2⟩
  refine ⟨n, fun net hnet ss hw hf x hx => ?_⟩
  obtain ⟨env, e1, e2⟩ := h net hnet n ss hw hf x hx
  refine ⟨env, e1, e2.imp fun _ _ hc => hc.mono ?_⟩
  have h1 : (n : ℚ) < 2 ^ n := by exact_mod_cast Nat.lt_two_pow_self
  rw [div_le_iff₀ (by positivity)]
  have := (div_lt_iff₀ hε).mp (hn.trans h1)
  linarith

/-! ### tame layers -/

/-- a layer computing every output position from its inputs by functions with common bounds -/
theorem tame_range (m n : ℕ) (h : List (List ℚ) → ℕ → ℚ) (b : ∀ B : ℚ, ∃ B' c, 0 ≤ B' ∧ 0 ≤ c ∧ ∀ xs : List (List ℚ), xs.length = m →
    (∀ x ∈ xs, Within B x) → ∀ p < n, |h xs p| ≤ B' ∧ ∀ ys : List (List ℚ), (∀ y ∈ ys, Within B y) → ∀ δ, 0 ≤ δ →
      List.Forall₂ (Close δ) ys xs → |h ys p - h xs p| ≤ c * δ) : Tame m fun xs => (List.range n).map (h xs) := by
  intro B
  obtain ⟨B', c, h1, h2, h3⟩ := b B
  refine ⟨B', c, h2, fun xs hm hx => ⟨within_range h1 fun p hp => (h3 xs hm hx p hp).1, fun ys hy δ hd hc => ?_⟩⟩
  exact close_range (by positivity) fun p hp => (h3 xs hm hx p hp).2 ys hy δ hd hc

theorem close_get {δ : ℚ} (h0 : 0 ≤ δ) {a b : List (List ℚ)} (h : List.Forall₂ (Close δ) a b) (i : ℕ) : Close δ (a.getD i []) (b.getD i []) := by
  have := close_gather h0 h [i]
  exact (List.forall₂_cons.mp this).1

theorem foldr_max_abs {B : ℚ} : ∀ (l : List ℚ) (a : ℚ), |a| ≤ B → (∀ x ∈ l, |x| ≤ B) → |l.foldr max a| ≤ B
  | [], _, ha, _ => ha
  | x :: l, a, ha, hl => by
    have h1 := foldr_max_abs l a ha fun y hy => hl y (by simp [hy])
    rcases max_choice x (l.foldr max a) with h | h <;> simp only [List.foldr_cons] <;> rw [h]
    · exact hl x (by simp)
    · exact h1

theorem max_close {a b a' b' δ : ℚ} (h1 : |a - a'| ≤ δ) (h2 : |b - b'| ≤ δ) : |max a b - max a' b'| ≤ δ := by
  have h1 := abs_le.mp h1
  have h2 := abs_le.mp h2
  rw [abs_le]
  rcases max_cases a b with ⟨e1, e2⟩ | ⟨e1, e2⟩ <;> rcases max_cases a' b' with ⟨e3, e4⟩ | ⟨e3, e4⟩ <;> rw [e1, e3] <;>
    constructor <;> linarith [h1.1, h1.2, h2.1, h2.2]

theorem foldr_max_close {x y : List ℚ} {δ : ℚ} (h : Close δ x y) (i : ℕ) : ∀ (l : List ℕ),
    |(l.map (at0 x)).foldr max (at0 x i) - (l.map (at0 y)).foldr max (at0 y i)| ≤ δ
  | [] => h.2 i
  | j :: l => max_close (h.2 j) (foldr_max_close h i l)

theorem sum_at_close {x y : List ℚ} {δ : ℚ} (h : Close δ x y) : ∀ (l : List ℕ), |(l.map (at0 x)).sum - (l.map (at0 y)).sum| ≤ l.length * δ
  | [] => by simp
  | j :: l => by
    have h1 := h.2 j
    have h2 := sum_at_close h l
    simp only [List.map_cons, List.sum_cons, List.length_cons]
    push_cast
    rw [show ∀ a b c d : ℚ, a + b - (c + d) = (a - c) + (b - d) by intros; ring]
    refine (abs_add_le _ _).trans ?_
    unfold at0 at *
    linarith

theorem sum_at_within {y : List ℚ} {B : ℚ} (h : Within B y) : ∀ (l : List ℕ), |(l.map (at0 y)).sum| ≤ l.length * B
  | [] => by simp
  | j :: l => by
    have h1 := h j
    have h2 := sum_at_within h l
    simp only [List.map_cons, List.sum_cons, List.length_cons]
    push_cast
    refine (abs_add_le _ _).trans ?_
    unfold at0 at *
    linarith

/-- **C108**: reshape, flatten, permute, padding (positions out of range read as 0), max and average pooling, concatenation of any number of
tensors, and pointwise activation functions that are Lipschitz continuous on bounded inputs, are tame. -/
theorem C108_tame (m n : ℕ) :
    (∀ through src, Tame m (PLay.move through n src).eval) ∧ (∀ win, Tame m (PLay.maxPool n win).eval) ∧
    (∀ size win, Tame m (PLay.avgPool size n win).eval) ∧ (∀ src, Tame m (PLay.concat n src).eval) ∧
    ∀ f : ℚ → ℚ, (∀ B, ∃ c, 0 ≤ c ∧ ∀ a b, |a| ≤ B → |b| ≤ B → |f a - f b| ≤ c * |a - b|) → Tame m fun ins => (ins.headD []).map f := by
  have hw : ∀ {B : ℚ} {xs : List (List ℚ)}, (∀ x ∈ xs, Within B x) → ∀ p, |(xs.headD []).getD p 0| ≤ max B 0 := by
    intro B xs hx p
    exact within_head (le_max_right _ _) (fun x h => (hx x h).mono (le_max_left _ _)) p
  refine ⟨fun through src => tame_range m n _ fun B => ⟨max B 0, 1, le_max_right _ _, by norm_num, fun xs _ hx p _ => ⟨hw hx _, ?_⟩⟩,
    fun win => tame_range m n _ fun B => ⟨max B 0, 1, le_max_right _ _, by norm_num, fun xs _ hx p _ => ⟨?_, ?_⟩⟩,
    fun size win => tame_range m n _ fun B => ⟨max B 0, 1, le_max_right _ _, by norm_num, fun xs _ hx p _ => ⟨?_, ?_⟩⟩,
    fun src => tame_range m n _ fun B => ⟨max B 0, 1, le_max_right _ _, by norm_num, fun xs _ hx p _ => ⟨?_, ?_⟩⟩, fun f hf B => ?_⟩
  · intro ys _ δ hd hc
    rw [one_mul]
    exact (close_head hd hc).2 _
  · refine foldr_max_abs _ _ (hw hx _) fun y hy => ?_
    obtain ⟨i, -, rfl⟩ := List.mem_map.mp hy
    exact hw hx i
  · intro ys _ δ hd hc
    rw [one_mul]
    exact foldr_max_close (close_head hd hc) _ _
  · rcases Nat.eq_zero_or_pos (win p).length with h | h
    · rw [h]; simp
    · rw [abs_div, abs_of_pos (show (0 : ℚ) < ((win p).length : ℚ) by exact_mod_cast h), div_le_iff₀ (by exact_mod_cast h), mul_comm]
      exact sum_at_within (hw hx) _
  · intro ys _ δ hd hc
    rw [one_mul, ← sub_div]
    rcases Nat.eq_zero_or_pos (win p).length with h | h
    · rw [h]; simpa using hd
    · rw [abs_div, abs_of_pos (show (0 : ℚ) < ((win p).length : ℚ) by exact_mod_cast h), div_le_iff₀ (by exact_mod_cast h), mul_comm]
      exact sum_at_close (close_head hd hc) _
  · exact within_gather (B := max B 0) (le_max_right _ _) (fun x h => (hx x h).mono (le_max_left _ _)) [(src p).1] _ (by simp [gather]) _
  · intro ys _ δ hd hc
    rw [one_mul]
    exact (close_get hd hc _).2 _
  · obtain ⟨c, hc0, hc⟩ := hf (max B 0)
    have h0 : ∀ (x : List ℚ) p, (x.map f).getD p 0 = if p < x.length then f (x.getD p 0) else 0 := by
      intro x p
      rw [List.getD_eq_getElem?_getD, List.getElem?_map, List.getD_eq_getElem?_getD]
      split_ifs with h
      · rw [List.getElem?_eq_getElem h]; rfl
      · rw [List.getElem?_eq_none (by omega)]; rfl
    refine ⟨|f 0| + c * max B 0, c, hc0, fun xs _ hx => ⟨fun p => ?_, fun ys hy δ hd hcl => ?_⟩⟩
    · have hm : 0 ≤ max B 0 := le_max_right _ _
      rw [h0]
      split_ifs
      · have h1 := hc _ 0 (hw hx p) (by simpa using hm)
        rw [sub_zero] at h1
        have h2 := mul_le_mul_of_nonneg_left (hw hx p) hc0
        set v := (xs.headD []).getD p 0
        calc |f v| = |f v - f 0 + f 0| := by ring_nf
          _ ≤ _ := abs_add_le _ _
          _ ≤ _ := by linarith
      · simpa using by positivity
    · have hcl := close_head hd hcl
      refine ⟨by simpa using hcl.1, fun p => ?_⟩
      rw [h0, h0, hcl.1]
      split_ifs
      · exact (hc _ _ (hw hy p) (hw hx p)).trans (mul_le_mul_of_nonneg_left (hcl.2 p) hc0)
      · simpa using by positivity

/-! ### the condition on activation functions is needed -/

/-- a step at 1/3 after a quantizer -/
def stepNet (q : QSite) : Net :=
  [(.quantize q, [0]), (.activation .other (List.map fun v => if v < 1 / 3 then 0 else 1) q, [1])]

def stepSite : QSite := ⟨⟨3, true, none, fun _ => 1, 7 / 10⟩, [1], [1]⟩

/-- **C108**: with a discontinuous activation function no number of bits helps: at 1/3 the quantized model is off by 1 for every bitwidth. -/
theorem C108_discontinuous (F : ℕ) (s : QState) (hs : s.fbw 0 = F) :
    ∃ y, (stepNet stepSite).predict [s, s] [[1 / 3]] = .ok [[1 / 3], [y], [0]] ∧ (stepNet stepSite).float.eval [[1 / 3]] = [[1 / 3], [1 / 3], [1]] := by
  refine ⟨evalQ 3 F (1 / 3), ?_, by decide +kernel⟩
  have hcl : (stepNet stepSite).All Node.Clipped [s, s] :=
    ⟨fun q hq e => by cases hq; rfl, fun q hq e => by cases hq; rfl, trivial⟩
  rw [predict_eq _ _ hcl]
  congr 1
  have hlt : evalQ 3 (F : ℚ) (1 / 3) < 1 / 3 := by
    rw [evalQ_floor, show tfRound ((F : ℕ) : ℚ) = (F : ℤ) by exact_mod_cast tfRound_int (F : ℤ)]
    have hp := p2_pos (-(F : ℤ))
    have h1 := flr_le (1 / 3 * p2 (F : ℤ))
    have hne : (flr (1 / 3 * p2 (F : ℤ)) : ℚ) ≠ 1 / 3 * p2 (F : ℤ) := by
      intro h
      have h3 : (3 * flr (1 / 3 * p2 (F : ℤ)) : ℤ) = (2 : ℤ) ^ F := by
        have : (3 : ℚ) * flr (1 / 3 * p2 (F : ℤ)) = 2 ^ F := by
          rw [h, p2_natCast]; push_cast; ring
        exact_mod_cast this
      have hd : (3 : ℤ) ∣ 2 ^ F := ⟨_, h3.symm⟩
      have hd' : (3 : ℕ) ∣ 2 ^ F := by exact_mod_cast hd
      have h2 : ∀ k : ℕ, ¬ (3 : ℕ) ∣ 2 ^ k := by
        intro k
        induction k with
        | zero => decide
        | succ k ih => rw [pow_succ]; omega
      exact h2 F hd'
    have h2 := lt_of_le_of_ne h1 hne
    have h4 := mul_lt_mul_of_pos_right h2 hp
    rwa [mul_assoc, p2_mul_neg, mul_one] at h4
  have e0 : Node.out (.quantize stepSite) s.fbw [[1 / 3]] = [evalQ 3 F (1 / 3)] := by
    change [evalQ 3 (s.fbw 0) (1 / 3)] = _
    rw [hs]
  have e1 : Node.out (.activation .other (List.map fun v => if v < 1 / 3 then 0 else 1) stepSite) s.fbw [[evalQ 3 F (1 / 3)]] = [0] := by
    change [evalQ 3 (s.fbw 0) (if evalQ 3 F (1 / 3) < 1 / 3 then 0 else 1)] = _
    rw [if_pos hlt, evalQ_floor]
    simp [flr]
  change [[1 / 3], Node.out (.quantize stepSite) s.fbw [[1 / 3]], Node.out _ s.fbw [Node.out (.quantize stepSite) s.fbw [[1 / 3]]]] = _
  rw [e0, e1]

/-! ### the hypotheses are met by the network of `Verif/Props/Net.lean` -/

theorem exNet_tame : exNet.float.Tame := by
  intro l hl
  simp only [Net.float, exNet, Node.float, List.map_cons, List.map_nil, List.mem_cons, List.not_mem_nil, or_false] at hl
  rcases hl with rfl | rfl | rfl | rfl
  · trivial
  · trivial
  · have hr : ∀ (x : List ℚ) p, x.reverse.getD p 0 = if p < x.length then x.getD (x.length - 1 - p) 0 else 0 := by
      intro x p
      rw [List.getD_eq_getElem?_getD, List.getD_eq_getElem?_getD]
      split_ifs with h
      · rw [List.getElem?_reverse h]
      · rw [List.getElem?_eq_none (by simpa using h)]; rfl
    intro B
    refine ⟨max B 0, 1, by norm_num, fun xs _ hx => ⟨fun p => ?_, fun ys _ δ hd hc => ?_⟩⟩
    · rw [hr]
      split_ifs
      · exact within_head (le_max_right _ _) (fun x h => (hx x h).mono (le_max_left _ _)) _
      · simp
    · have hc := close_head hd hc
      refine ⟨by simpa using hc.1, fun p => ?_⟩
      rw [hr, hr, hc.1, one_mul]
      split_ifs
      · exact hc.2 _
      · simpa using hd
  · trivial

theorem exNet_fine : exNet.All (Node.Fine 1) exNetStates := by
  have hfb : ∀ e, (1 : ℚ) ≤ exState.fbw e := by
    intro e
    show (1 : ℚ) ≤ if e = 0 then _ else _
    split_ifs <;> norm_num
  have hk : ∀ j, (1 : ℚ) ≤ (exDense 3 [2] true).kq.clip ((exDense 3 [2] true).kfbw j) := by
    intro j
    change (1 : ℚ) ≤ (exDense 3 [2] true).kq.clip 3
    decide +kernel
  refine ⟨⟨?_, ?_⟩, ⟨?_, ?_⟩, ⟨?_, ?_⟩, ⟨?_, ?_⟩, trivial⟩
  all_goals first
    | (intro q hq; cases hq; done)
    | (intro q hq e _; exact_mod_cast hfb e)
    | (intro L hL p _ ij _; cases hL; exact_mod_cast hk ij.2)

-- the constant for inputs up to 4, and all tensors of the quantized network within `K / 2` of those without quantizers
example : ∃ K : ℚ, ∀ x : List (List ℚ), (∀ t ∈ x, Within 4 t) →
    ∃ env, exNet.predict exNetStates x = .ok env ∧ List.Forall₂ (Close (K / 2 ^ 1)) env (exNet.float.eval x) := by
  obtain ⟨K, h⟩ := C108_error_bound exNet.float exNet_tame 4 (by norm_num)
  exact ⟨K, h exNet rfl 1 exNetStates exNet_wf exNet_fine⟩

example : exNet.float.eval [[1, 1 / 3]] = [[1, 1 / 3], [1, 1 / 3], [17 / 12, 0], [0, 17 / 12], [1, 7 / 4]] := by decide +kernel

end HGQ
