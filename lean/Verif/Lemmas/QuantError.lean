import Verif.Spec.FloatNet
import Verif.Props.MoreBits
import Verif.Model.TrainNet
import Verif.Props.Net
import Verif.Props.LayerFloat32

namespace Spec

/-- the output of a layer whose weights, bias and results were each changed by at most `δ` -/
def FLayer.Perturbed (δ : ℚ) (l : FLayer) (ins : List (List ℚ)) (out : List ℚ) : Prop :=
  match l with
  | .ident n | .act n _ | .add n => ∃ y : ℕ → ℚ, out = (List.range n).map y ∧ ∀ p < n, |y p - l.at ins p| ≤ δ
  | .linear n taps weight bias relu => ∃ (w : ℕ → ℕ → ℚ) (b y : ℕ → ℚ),
      out = ((List.range n).map fun p => if relu then max (y p) 0 else y p) ∧
      ∀ p < n, (∀ ij ∈ taps p, |w p ij.2 - weight ij.2| ≤ δ) ∧ |b p - bias p| ≤ δ ∧
        |y p - (((taps p).map fun ij => (ins.headD []).getD ij.1 0 * w p ij.2).sum + b p)| ≤ δ
  | .passive g => out = g ins

/-- a network with perturbed layers -/
def FNet.Perturbed (δ : ℚ) : FNet → List (List ℚ) → List (List ℚ) → Prop
  | [], env, out => out = env
  | (l, ins) :: rest, env, out => ∃ o, l.Perturbed δ (ins.map fun i => env.getD i []) o ∧ FNet.Perturbed δ rest (env ++ [o]) out

end Spec

namespace HGQ
open Spec

/-- the layer without its quantizers -/
def Node.float : Node → FLayer
  | .quantize q => .ident (prodL q.outShape)
  | .activation _ φ q => .act (prodL q.outShape) φ
  | .add q => .add (prodL q.outShape)
  | .linear L => .linear (prodL L.outShape) L.taps L.kernel (fun p => match L.bias with | none => 0 | some b => b (L.chan p)) L.reluAct
  | .passive g => .passive g

/-- the network without its quantizers -/
def Net.float (net : Net) : FNet := net.map fun ni => (ni.1.float, ni.2)

/-- all quantizers of the layer have at least `F` fractional bits -/
structure Node.Fine (F : ℕ) (nd : Node) (s : QState) : Prop where
  out : ∀ q, nd.site = some q → ∀ e < prodL q.qShape, (F : ℚ) ≤ s.fbw e
  weight : ∀ L, nd = .linear L → ∀ p < prodL L.outShape, ∀ ij ∈ L.taps p, (F : ℚ) ≤ L.kq.clip (L.kfbw ij.2)

theorem evalQ_err (st : ℤ) {F : ℕ} {f : ℚ} (h : (F : ℚ) ≤ f) (x : ℚ) : |evalQ st f x - x| ≤ p2 (-(F : ℤ)) := by
  refine le_trans (evalQ_error_mono st h x) ?_
  rw [evalQ_eq, show tfRound ((F : ℕ) : ℚ) = (F : ℤ) by exact_mod_cast tfRound_int (F : ℤ)]
  have hp : 0 < p2 (-(F : ℤ)) := p2_pos _
  have ex : x = x * p2 (F : ℤ) * p2 (-(F : ℤ)) := by rw [mul_assoc, p2_mul_neg, mul_one]
  have key : ∀ m : ℤ, |(m : ℚ) - x * p2 (F : ℤ)| ≤ 1 → |(m : ℚ) * p2 (-(F : ℤ)) - x| ≤ p2 (-(F : ℤ)) := by
    intro m hm
    have e1 : (m : ℚ) * p2 (-(F : ℤ)) - x = (m - x * p2 (F : ℤ)) * p2 (-(F : ℤ)) := by rw [sub_mul, ← ex]
    rw [e1, abs_mul, abs_of_pos hp]
    exact mul_le_of_le_one_left hp.le hm
  split_ifs
  · apply key
    have h1 := flr_le (x * p2 (F : ℤ))
    have h2 := lt_flr_add_one (x * p2 (F : ℤ))
    rw [abs_le]; constructor <;> linarith
  · apply key
    have h1 := flr_le (x * p2 (F : ℤ) + 1 / 2)
    have h2 := lt_flr_add_one (x * p2 (F : ℤ) + 1 / 2)
    rw [abs_le]; constructor <;> linarith

theorem evalQ_near (st : ℤ) {F : ℕ} {f x y e : ℚ} (h : (F : ℚ) ≤ f) (hxy : |x - y| ≤ e) : |evalQ st f x - y| ≤ e + p2 (-(F : ℤ)) := by
  have := evalQ_err st h x
  calc |evalQ st f x - y| = |(evalQ st f x - x) + (x - y)| := by ring_nf
    _ ≤ _ := abs_add_le _ _
    _ ≤ _ := by linarith

theorem p2_neg_nat_le (F : ℕ) : p2 (-(F : ℤ)) ≤ 1 := by
  have := p2_le_p2 (a := -(F : ℤ)) (b := 0) (by omega)
  rwa [p2_zero] at this

theorem getD_range (n : ℕ) (g : ℕ → ℚ) (p : ℕ) : ((List.range n).map g).getD p 0 = if p < n then g p else 0 := by
  rw [List.getD_eq_getElem?_getD, List.getElem?_map]
  split_ifs with h
  · rw [List.getElem?_range h]; rfl
  · rw [List.getElem?_eq_none (by simpa using h)]; rfl

theorem close_range {n : ℕ} {g g' : ℕ → ℚ} {δ : ℚ} (h0 : 0 ≤ δ) (h : ∀ p < n, |g p - g' p| ≤ δ) :
    Close δ ((List.range n).map g) ((List.range n).map g') := by
  refine ⟨by simp, fun p => ?_⟩
  rw [getD_range, getD_range]
  split_ifs with hp
  · exact h p hp
  · simpa using h0

theorem within_range {n : ℕ} {g : ℕ → ℚ} {B : ℚ} (h0 : 0 ≤ B) (h : ∀ p < n, |g p| ≤ B) : Within B ((List.range n).map g) := by
  intro p
  rw [getD_range]
  split_ifs with hp
  · exact h p hp
  · simpa using h0

theorem _root_.Spec.Close.mono {δ δ' : ℚ} {x y : List ℚ} (h : Close δ x y) (hd : δ ≤ δ') : Close δ' x y := ⟨h.1, fun p => (h.2 p).trans hd⟩
theorem _root_.Spec.Within.mono {B B' : ℚ} {x : List ℚ} (h : Within B x) (hd : B ≤ B') : Within B' x := fun p => (h p).trans hd

theorem _root_.Spec.Close.within {δ B : ℚ} {x y : List ℚ} (h : Close δ x y) (hy : Within B y) : Within (B + δ) x := by
  intro p
  have h1 := h.2 p
  have h2 := hy p
  calc |x.getD p 0| = |(x.getD p 0 - y.getD p 0) + y.getD p 0| := by ring_nf
    _ ≤ _ := abs_add_le _ _
    _ ≤ _ := by linarith

theorem close_head {δ : ℚ} (h0 : 0 ≤ δ) : ∀ {xs ys : List (List ℚ)}, List.Forall₂ (Close δ) xs ys → Close δ (xs.headD []) (ys.headD [])
  | [], [], _ => ⟨rfl, fun p => by simpa using h0⟩
  | _ :: _, _ :: _, .cons h _ => h

theorem within_head {B : ℚ} (h0 : 0 ≤ B) {xs : List (List ℚ)} (h : ∀ x ∈ xs, Within B x) : Within B (xs.headD []) := by
  cases xs with
  | nil => intro p; simpa using h0
  | cons a l => exact h a (by simp)

theorem sum_close {δ : ℚ} (p : ℕ) : ∀ {xs ys : List (List ℚ)}, List.Forall₂ (Close δ) xs ys →
    |(xs.map fun x => x.getD p 0).sum - (ys.map fun x => x.getD p 0).sum| ≤ ys.length * δ
  | [], [], _ => by simp
  | x :: xs, y :: ys, .cons h t => by
    have h1 := h.2 p
    have h2 := sum_close p t
    simp only [List.map_cons, List.sum_cons, List.length_cons]
    push_cast
    rw [show ∀ a b c d : ℚ, a + b - (c + d) = (a - c) + (b - d) by intros; ring]
    refine (abs_add_le _ _).trans ?_
    linarith

theorem sum_within {B : ℚ} (p : ℕ) : ∀ {ys : List (List ℚ)}, (∀ y ∈ ys, Within B y) →
    |(ys.map fun x => x.getD p 0).sum| ≤ ys.length * B
  | [], _ => by simp
  | y :: ys, h => by
    have h1 := h y (by simp) p
    have h2 := sum_within p (ys := ys) fun z hz => h z (by simp [hz])
    simp only [List.map_cons, List.sum_cons, List.length_cons]
    push_cast
    refine (abs_add_le _ _).trans ?_
    linarith

/-- a bound for every position from the sum over all positions -/
theorem le_sum_range {n : ℕ} {g : ℕ → ℚ} (h : ∀ p, 0 ≤ g p) {p : ℕ} (hp : p < n) : g p ≤ ((List.range n).map g).sum :=
  List.single_le_sum (by intro x hx; obtain ⟨a, -, rfl⟩ := List.mem_map.mp hx; exact h a) _ (List.mem_map.mpr ⟨p, List.mem_range.mpr hp, rfl⟩)

/-- error of one product -/
theorem mul_close {x x' w w' e B δ : ℚ} (h1 : |x - x'| ≤ e) (h2 : |w - w'| ≤ δ) (h3 : |x'| ≤ B) (hd : δ ≤ 1) :
    |x * w - x' * w'| ≤ e * (|w'| + 1) + B * δ := by
  have e1 : x * w - x' * w' = (x - x') * w + x' * (w - w') := by ring
  have hw : |w| ≤ |w'| + 1 := by
    calc |w| = |(w - w') + w'| := by ring_nf
      _ ≤ _ := abs_add_le _ _
      _ ≤ _ := by linarith
  rw [e1]
  refine (abs_add_le _ _).trans ?_
  rw [abs_mul, abs_mul]
  have he : 0 ≤ e := (abs_nonneg _).trans h1
  have hB : 0 ≤ B := (abs_nonneg _).trans h3
  exact add_le_add (mul_le_mul h1 hw (abs_nonneg _) he) (mul_le_mul h3 h2 (abs_nonneg _) hB)

theorem taps_close {x x' : List ℚ} {w w' : ℕ → ℚ} {e B δ : ℚ} (hx : ∀ p, |x.getD p 0 - x'.getD p 0| ≤ e) (hB : Within B x') (hd : δ ≤ 1) :
    ∀ (l : List (ℕ × ℕ)), (∀ ij ∈ l, |w ij.2 - w' ij.2| ≤ δ) →
    |(l.map fun ij => x.getD ij.1 0 * w ij.2).sum - (l.map fun ij => x'.getD ij.1 0 * w' ij.2).sum| ≤
      (l.map fun ij => e * (|w' ij.2| + 1) + B * δ).sum
  | [], _ => by simp
  | ij :: l, h => by
    have h1 := mul_close (hx ij.1) (h ij (by simp)) (hB ij.1) hd
    have h2 := taps_close hx hB hd l fun a ha => h a (by simp [ha])
    simp only [List.map_cons, List.sum_cons]
    rw [show ∀ a b c d : ℚ, a + b - (c + d) = (a - c) + (b - d) by intros; ring]
    exact (abs_add_le _ _).trans (add_le_add h1 h2)

theorem taps_within {x : List ℚ} {w : ℕ → ℚ} {B : ℚ} (hB : Within B x) : ∀ (l : List (ℕ × ℕ)),
    |(l.map fun ij => x.getD ij.1 0 * w ij.2).sum| ≤ (l.map fun ij => B * |w ij.2|).sum
  | [] => by simp
  | ij :: l => by
    simp only [List.map_cons, List.sum_cons]
    refine (abs_add_le _ _).trans (add_le_add ?_ (taps_within hB l))
    rw [abs_mul]
    exact mul_le_mul_of_nonneg_right (hB _) (abs_nonneg _)

theorem relu_close {a b e : ℚ} (h : |a - b| ≤ e) : |max a 0 - max b 0| ≤ e := by
  have h' := abs_le.mp h
  rw [abs_le]
  rcases max_cases a 0 with ⟨h1, h2⟩ | ⟨h1, h2⟩ <;> rcases max_cases b 0 with ⟨h3, h4⟩ | ⟨h3, h4⟩ <;> rw [h1, h3] <;>
    constructor <;> linarith [h'.1, h'.2]

theorem forall2_mem_left {α β : Type} {R : α → β → Prop} {l : List α} {l' : List β} (h : List.Forall₂ R l l') :
    ∀ {a : α}, a ∈ l → ∃ b ∈ l', R a b := by
  induction h with
  | nil => intro a ha; simp at ha
  | cons h _ ih =>
    intro a ha
    rcases List.mem_cons.mp ha with rfl | ha
    · exact ⟨_, by simp, h⟩
    · obtain ⟨b, hb, hr⟩ := ih ha
      exact ⟨b, by simp [hb], hr⟩

theorem map_sum_mul (c : ℚ) (l : List α) (f : α → ℚ) : (l.map fun a => f a * c).sum = (l.map f).sum * c := by
  induction l with
  | nil => simp
  | cons a l ih => simp [ih, add_mul]

/-- the bitwidth of the bias is large enough -/
theorem bias_fine {L : LinLayer} {s : QState} (hw : (Node.linear L).WF s) {F : ℕ} (hf : (Node.linear L).Fine F s) {p : ℕ}
    (hp : p < prodL L.outShape) {b : ℕ → ℚ} (hb : L.bias = some b) : (F : ℚ) ≤ maxFbw s.fbw (redElems L.qShape L.jitLoc (L.chan p)) := by
  have hne : redElems L.qShape L.jitLoc (L.chan p) ≠ [] := by
    rcases hw.loc L rfl with h | ⟨h1, h2⟩ | h
    · rw [h]
      exact List.ne_nil_of_mem (elemOf_mem_redElems (hw.shape _ rfl) L.chLoc hp)
    · rw [redElems_one h1 h2]; simp
    · rw [hb] at h; cases h
  obtain ⟨e, he, hm⟩ := maxFbw_mem s.fbw hne
  rw [hm]
  refine hf.out _ rfl e ?_
  unfold redElems at he
  exact List.mem_range.mp (List.mem_filter.mp he).1

theorem close_gather {δ : ℚ} (h0 : 0 ≤ δ) {envQ env : List (List ℚ)} (h : List.Forall₂ (Close δ) envQ env) (ins : List ℕ) :
    List.Forall₂ (Close δ) (gather envQ ins) (gather env ins) := by
  have key : ∀ {a b : List (List ℚ)}, List.Forall₂ (Close δ) a b → ∀ i, Close δ (a.getD i []) (b.getD i []) := by
    intro a b h
    induction h with
    | nil => intro i; exact ⟨rfl, fun p => by simpa using h0⟩
    | cons h _ ih => intro i; cases i with
      | zero => exact h
      | succ i => exact ih i
  unfold gather
  rw [List.forall₂_map_left_iff, List.forall₂_map_right_iff, List.forall₂_same]
  exact fun i _ => key h i

theorem within_gather {B : ℚ} (h0 : 0 ≤ B) {env : List (List ℚ)} (h : ∀ x ∈ env, Within B x) (ins : List ℕ) :
    ∀ x ∈ gather env ins, Within B x := by
  intro x hx
  obtain ⟨i, -, rfl⟩ := List.mem_map.mp hx
  rw [List.getD_eq_getElem?_getD]
  cases hi : env[i]? with
  | none => intro p; simpa using h0
  | some y => exact h y (List.mem_of_getElem? hi)

theorem near_add {x y z e δ : ℚ} (h : |x - y| ≤ δ) (hxy : |y - z| ≤ e) : |x - z| ≤ e + δ := by
  calc |x - z| = |(x - y) + (y - z)| := by ring_nf
    _ ≤ _ := abs_add_le _ _
    _ ≤ _ := by linarith

/-- one dense or convolution layer at one position -/
theorem linear_step {taps : List (ℕ × ℕ)} {weight w : ℕ → ℚ} {bias b y : ℚ} {relu : Bool} {δ B E : ℚ} (hd1 : δ ≤ 1) {x xq : List ℚ}
    (hcl : Close (E * δ) xq x) (hb : Within B x) (hw : ∀ ij ∈ taps, |w ij.2 - weight ij.2| ≤ δ) (hbias : |b - bias| ≤ δ)
    (hy : |y - ((taps.map fun ij => xq.getD ij.1 0 * w ij.2).sum + b)| ≤ δ) :
    |(let z := (taps.map fun ij => x.getD ij.1 0 * weight ij.2).sum + bias; if relu then max z 0 else z)| ≤
      (taps.map fun ij => B * |weight ij.2|).sum + |bias| ∧
    |(if relu then max y 0 else y) - (let z := (taps.map fun ij => x.getD ij.1 0 * weight ij.2).sum + bias; if relu then max z 0 else z)| ≤
      ((taps.map fun ij => E * (|weight ij.2| + 1) + B).sum + 2) * δ := by
  refine ⟨?_, ?_⟩
  · have hz : ∀ z b : ℚ, |z| ≤ b → |(if relu then max z 0 else z)| ≤ b := by
      intro z b hz
      split_ifs
      · have := relu_close (a := z) (b := 0) (e := b) (by simpa using hz)
        simpa using this
      · exact hz
    exact hz _ _ ((abs_add_le _ _).trans (add_le_add (taps_within hb _) le_rfl))
  · have hz : ∀ y z e : ℚ, |y - z| ≤ e → |(if relu then max y 0 else y) - (if relu then max z 0 else z)| ≤ e := by
      intro y z e h
      split_ifs
      · exact relu_close h
      · exact h
    refine hz _ _ _ ?_
    rw [show ∀ a d : ℚ, (a + 2) * d = (a * d + d) + d by intros; ring]
    refine near_add hy ?_
    rw [show ∀ a b c d : ℚ, a + b - (c + d) = (a - c) + (b - d) by intros; ring]
    refine (abs_add_le _ _).trans (add_le_add ?_ hbias)
    refine (taps_close hcl.2 hb hd1 taps hw).trans ?_
    have e1 : (fun ij : ℕ × ℕ => E * δ * (|weight ij.2| + 1) + B * δ) =
        fun ij => (E * (|weight ij.2| + 1) + B) * δ := by funext ij; ring
    rw [e1, map_sum_mul]

/-- one layer: bounds for its output and its error from those of its inputs -/
theorem FLayer.step (l : FLayer) (m : ℕ) (ht : match l with
      | .act _ φ => Spec.Tame m fun ins => φ (ins.headD [])
      | .passive g => Spec.Tame m g
      | _ => True) (B E : ℚ) (hB : 0 ≤ B) (hE : 0 ≤ E) :
    ∃ B' E' : ℚ, 0 ≤ B' ∧ 0 ≤ E' ∧ ∀ δ : ℚ, 0 ≤ δ → δ ≤ 1 → ∀ (ins insQ : List (List ℚ)) (out : List ℚ), l.Perturbed δ insQ out →
      ins.length = m → List.Forall₂ (Close (E * δ)) insQ ins → (∀ x ∈ ins, Within B x) →
        Within B' (l.eval ins) ∧ Close (E' * δ) out (l.eval ins) := by
  cases l with
  | ident n =>
    refine ⟨B, E + 1, hB, by linarith, fun δ hd hd1 ins insQ out ho hm hc hb => ?_⟩
    obtain ⟨y, rfl, hy⟩ := ho
    refine ⟨within_range hB fun p _ => within_head hB hb p, ?_⟩
    refine close_range (by positivity) fun p hpn => ?_
    rw [add_mul, one_mul]
    exact near_add (hy p hpn) ((close_head (by positivity) hc).2 p)
  | add n =>
    refine ⟨m * B, m * E + 1, by positivity, by positivity, fun δ hd hd1 ins insQ out ho hm hc hb => ?_⟩
    obtain ⟨y, rfl, hy⟩ := ho
    refine ⟨within_range (by positivity) fun p _ => by rw [← hm]; exact sum_within p hb, ?_⟩
    refine close_range (by positivity) fun p hpn => ?_
    rw [add_mul, one_mul, mul_assoc]
    refine near_add (hy p hpn) ?_
    rw [← hm]
    exact sum_close p hc
  | act n φ =>
    obtain ⟨B', c, hc0, h⟩ := ht (B + E)
    refine ⟨max B' 0, c * E + 1, le_max_right _ _, by positivity, fun δ hd hd1 ins insQ out ho hm hcl hb => ?_⟩
    obtain ⟨y, rfl, hy⟩ := ho
    have hb' : ∀ x ∈ ins, Within (B + E) x := fun x hx => (hb x hx).mono (by linarith)
    have hbq : ∀ y ∈ insQ, Within (B + E) y := by
      intro y hy
      obtain ⟨x, hx, hyx⟩ := forall2_mem_left hcl hy
      refine (hyx.within (hb x hx)).mono ?_
      have := mul_le_mul_of_nonneg_left hd1 hE
      linarith
    obtain ⟨h1, h2⟩ := h ins hm hb'
    refine ⟨within_range (le_max_right _ _) fun p _ => (h1 p).trans (le_max_left _ _), ?_⟩
    refine close_range (by positivity) fun p hpn => ?_
    rw [add_mul, one_mul, mul_assoc]
    exact near_add (hy p hpn) ((h2 insQ hbq _ (by positivity) hcl).2 p)
  | passive g =>
    obtain ⟨B', c, hc0, h⟩ := ht (B + E)
    refine ⟨max B' 0, c * E, le_max_right _ _, by positivity, fun δ hd hd1 ins insQ out ho hm hcl hb => ?_⟩
    obtain rfl : out = g insQ := ho
    have hb' : ∀ x ∈ ins, Within (B + E) x := fun x hx => (hb x hx).mono (by linarith)
    have hbq : ∀ y ∈ insQ, Within (B + E) y := by
      intro y hy
      obtain ⟨x, hx, hyx⟩ := forall2_mem_left hcl hy
      refine (hyx.within (hb x hx)).mono ?_
      have := mul_le_mul_of_nonneg_left hd1 hE
      linarith
    obtain ⟨h1, h2⟩ := h ins hm hb'
    refine ⟨h1.mono (le_max_left _ _), ?_⟩
    rw [mul_assoc]
    exact h2 insQ hbq _ (by positivity) hcl
  | linear n taps weight bias relu =>
    have t1 : ∀ p, 0 ≤ ((taps p).map fun ij => E * (|weight ij.2| + 1) + B).sum := fun p =>
      List.sum_nonneg (by intro x hx; obtain ⟨a, -, rfl⟩ := List.mem_map.mp hx; positivity)
    have t2 : ∀ p, 0 ≤ ((taps p).map fun ij => B * |weight ij.2|).sum + |bias p| := fun p =>
      add_nonneg (List.sum_nonneg (by intro x hx; obtain ⟨a, -, rfl⟩ := List.mem_map.mp hx; positivity)) (abs_nonneg _)
    have s1 : 0 ≤ ((List.range n).map fun p => ((taps p).map fun ij => E * (|weight ij.2| + 1) + B).sum).sum :=
      List.sum_nonneg (by intro x hx; obtain ⟨a, -, rfl⟩ := List.mem_map.mp hx; exact t1 a)
    have s2 : 0 ≤ ((List.range n).map fun p => ((taps p).map fun ij => B * |weight ij.2|).sum + |bias p|).sum :=
      List.sum_nonneg (by intro x hx; obtain ⟨a, -, rfl⟩ := List.mem_map.mp hx; exact t2 a)
    refine ⟨_, ((List.range n).map fun p => ((taps p).map fun ij => E * (|weight ij.2| + 1) + B).sum).sum + 2, s2, by linarith,
      fun δ hd hd1 ins insQ out ho hm hcl hb => ?_⟩
    obtain ⟨w, b, y, rfl, hy⟩ := ho
    have h := fun p (hp : p < n) => linear_step (relu := relu) hd1 (close_head (by positivity) hcl) (within_head hB hb) (hy p hp).1 (hy p hp).2.1 (hy p hp).2.2
    refine ⟨within_range s2 fun p hpn => (h p hpn).1.trans (le_sum_range t2 hpn), ?_⟩
    refine close_range (by positivity) fun p hpn => ?_
    refine (h p hpn).2.trans (mul_le_mul_of_nonneg_right ?_ hd)
    have := le_sum_range t1 hpn
    linarith

/-- the error of a whole network -/
theorem FNet.error (fnet : FNet) : fnet.Tame → ∀ (B E : ℚ), 0 ≤ B → 0 ≤ E → ∃ K : ℚ, 0 ≤ K ∧ ∀ δ : ℚ, 0 ≤ δ → δ ≤ 1 →
    ∀ envQ env out : List (List ℚ), fnet.Perturbed δ envQ out → List.Forall₂ (Close (E * δ)) envQ env → (∀ x ∈ env, Within B x) →
      List.Forall₂ (Close (K * δ)) out (fnet.eval env) := by
  induction fnet with
  | nil =>
    intro _ B E hB hE
    refine ⟨E, hE, fun δ hd hd1 envQ env out ho hc _ => ?_⟩
    obtain rfl : out = envQ := ho
    exact hc
  | cons li rest ih =>
    obtain ⟨l, ins⟩ := li
    intro ht B E hB hE
    obtain ⟨B', E', hB', hE', hstep⟩ := FLayer.step l ins.length (ht (l, ins) (by simp)) B E hB hE
    obtain ⟨K, hK, hrest⟩ := ih (fun x hx => ht x (by simp [hx])) (max B B') (max E E') (hB.trans (le_max_left _ _)) (hE.trans (le_max_left _ _))
    refine ⟨K, hK, fun δ hd hd1 envQ env out ho hc hb => ?_⟩
    obtain ⟨o, ho1, ho2⟩ := ho
    obtain ⟨h1, h2⟩ := hstep δ hd hd1 (gather env ins) (gather envQ ins) o ho1 (by simp [gather])
      (close_gather (by positivity) hc ins) (within_gather hB hb ins)
    refine hrest δ hd hd1 (envQ ++ [o]) (env ++ [l.eval (gather env ins)]) out ho2 ?_ ?_
    · refine List.rel_append ?_ (.cons (h2.mono (mul_le_mul_of_nonneg_right (le_max_right _ _) hd)) .nil)
      exact hc.imp fun _ _ h => h.mono (mul_le_mul_of_nonneg_right (le_max_left _ _) hd)
    · intro x hx
      rcases List.mem_append.mp hx with hx | hx
      · exact (hb x hx).mono (le_max_left _ _)
      · rw [List.mem_singleton.mp hx]
        exact h1.mono (le_max_right _ _)

/-! ### training and inference are perturbations -/

/-- inference is a perturbation -/
theorem Node.out_perturbed {nd : Node} {s : QState} (hw : nd.WF s) {F : ℕ} (hf : nd.Fine F s) (ins : List (List ℚ)) :
    nd.float.Perturbed (p2 (-(F : ℤ))) ins (nd.out s.fbw ins) := by
  have hq : ∀ q, nd.site = some q → ∀ p < prodL q.outShape, ∀ z, |evalQ q.conf.strategy (s.fbw (q.elem p)) z - z| ≤ p2 (-(F : ℤ)) :=
    fun q hs p hp z => evalQ_err _ (hf.out q hs _ (elemOf_lt (hw.shape q hs) hp)) z
  cases nd with
  | quantize q | activation _ _ q | add q => exact ⟨_, rfl, fun p hp => hq q rfl p hp _⟩
  | passive g => rfl
  | linear L =>
    refine ⟨fun _ => L.qkernel, fun p => L.jitBias s.fbw (L.chan p), fun p => (Node.linear L).quantAt ⟨L.paq, L.outShape, L.qShape⟩ s.fbw ins p, rfl,
      fun p hp => ⟨fun ij hij => evalQ_err _ (hf.weight L rfl p hp ij hij) _, ?_, hq _ rfl p hp _⟩⟩
    unfold LinLayer.jitBias
    cases hb : L.bias with
    | none => simpa using (p2_pos _).le
    | some b => exact evalQ_err _ (bias_fine hw hf hp hb) _

theorem Net.evalEnv_perturbed {F : ℕ} : ∀ {net : Net} {ss : List QState}, net.All Node.WF ss → net.All (Node.Fine F) ss → ∀ env : List (List ℚ),
    net.float.Perturbed (p2 (-(F : ℤ))) env (net.evalEnv (ss.map QState.fbw) env)
  | [], [], _, _, _ => rfl
  | (_, _) :: _, _ :: _, hw, hf, _ => ⟨_, Node.out_perturbed hw.1 hf.1 _, Net.evalEnv_perturbed hw.2 hf.2 _⟩

/-- all strategies exist and `pow2` is at least the power of two it approximates -/
def QConf.Valid (c : QConf) : Prop :=
  (c.strategy = 0 ∨ c.strategy = 1 ∨ c.strategy = 2 ∨ c.strategy = 3) ∧ ∀ (n : ℕ) (t : ℚ), (n : ℚ) ≤ t → 2 ^ n ≤ c.pow2 t

/-- all quantizers of a layer are valid -/
structure Node.Valid (nd : Node) : Prop where
  out : ∀ q, nd.site = some q → q.conf.Valid
  weight : ∀ L, nd = .linear L → L.kq.Valid

/-- random numbers of at most 1 in magnitude -/
structure Noise.Unit (nz : Noise) : Prop where
  kernel : ∀ j, |nz.kernel j| ≤ 1
  bias : ∀ c, |nz.bias c| ≤ 1
  out : ∀ b p, |nz.out b p| ≤ 1

theorem qRound_err {st : ℤ} (hs : st = 0 ∨ st = 1 ∨ st = 2 ∨ st = 3) (x noise : ℚ) (hn : |noise| ≤ 1) :
    ∃ y, qRound x st noise = .ok y ∧ |y - x| ≤ 1 := by
  have h1 := flr_le x
  have h2 := lt_flr_add_one x
  have h3 := flr_le (x + 1 / 2)
  have h4 := lt_flr_add_one (x + 1 / 2)
  rcases hs with rfl | rfl | rfl | rfl
  · exact ⟨_, by simp [qRound]; rfl, by rw [abs_le]; constructor <;> linarith⟩
  · refine ⟨_, by simp [qRound]; rfl, ?_⟩
    split_ifs <;> (rw [abs_le]; constructor <;> linarith)
  · refine ⟨_, by simp [qRound]; rfl, ?_⟩
    split_ifs with h
    · rw [abs_le] at *; constructor <;> linarith
    · rw [add_sub_cancel_right]; exact hn
  · exact ⟨_, by simp [qRound]; rfl, by rw [abs_le]; constructor <;> linarith⟩

theorem forward_err {c : QConf} (hv : c.Valid) {F : ℕ} {fbw : ℚ} (hf : (F : ℚ) ≤ fbw) (x noise : ℚ) (hn : |noise| ≤ 1) (training : Bool) :
    ∃ y, c.forward fbw x noise training = .ok y ∧ |y - x| ≤ p2 (-(F : ℤ)) := by
  have hsc : p2 (F : ℤ) ≤ c.scale fbw training := by
    unfold QConf.scale
    split_ifs
    · refine p2_le_p2 ?_
      have := tfRound_mono hf
      rwa [show tfRound ((F : ℕ) : ℚ) = (F : ℤ) by exact_mod_cast tfRound_int (F : ℤ)] at this
    · have := hv.2 F fbw hf
      rw [p2_natCast]
      exact_mod_cast this
  have hst : c.effStrategy training = 0 ∨ c.effStrategy training = 1 ∨ c.effStrategy training = 2 ∨ c.effStrategy training = 3 := by
    unfold QConf.effStrategy
    split_ifs
    · exact .inl rfl
    · exact hv.1
  obtain ⟨r, h1, h2⟩ := qRound_err hst (x * c.scale fbw training) noise hn
  have hp : 0 < p2 (F : ℤ) := p2_pos _
  have hs0 : 0 < c.scale fbw training := hp.trans_le hsc
  have herr : |r / c.scale fbw training - x| ≤ p2 (-(F : ℤ)) := by
    have e1 : r / c.scale fbw training - x = (r - x * c.scale fbw training) / c.scale fbw training := by field_simp
    rw [e1, abs_div, abs_of_pos hs0, div_le_iff₀ hs0]
    refine h2.trans ?_
    have := mul_le_mul_of_nonneg_left hsc (p2_pos (-(F : ℤ))).le
    rwa [p2_neg_mul] at this
  unfold QConf.forward
  simp only [h1, bind, Except.bind, pure, Except.pure]
  cases training
  · exact ⟨_, rfl, by simpa using herr⟩
  · refine ⟨_, rfl, ?_⟩
    simpa using herr

theorem mapM_rel {α β : Type} {R : α → β → Prop} {f : α → Except String β} : ∀ (l : List α), (∀ a ∈ l, ∃ b, f a = .ok b ∧ R a b) →
    ∃ bs, l.mapM f = .ok bs ∧ List.Forall₂ R l bs
  | [], _ => ⟨[], rfl, .nil⟩
  | a :: l, h => by
    obtain ⟨b, h1, h2⟩ := h a (by simp)
    obtain ⟨bs, h3, h4⟩ := mapM_rel l fun x hx => h x (by simp [hx])
    exact ⟨b :: bs, by rw [List.mapM_cons, h1, h3]; rfl, .cons h2 h4⟩

end HGQ
