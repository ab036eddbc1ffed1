import Verif.Lemmas.Taps
import Verif.Props.Net

/-!
C74: the layers with a kernel compute the textbook operations on quantized weights.
-/

namespace HGQ
open Finset

/-- a built `HDense` layer for inputs of shape `lead ++ [cin]` -/
def LinLayer.IsDense (L : LinLayer) (lead : List ℕ) (cin cout : ℕ) : Prop :=
  L.taps = denseTaps cin cout ∧ L.outShape = lead ++ [cout] ∧ L.chLoc = .last

/-- a built channels-last `HConv1D` layer -/
def LinLayer.IsConv1 (L : LinLayer) (d : ConvDim) (cinK cout groups : ℕ) : Prop :=
  L.taps = convTaps [d] cinK cout groups ∧ L.outShape = [d.out, cout] ∧ L.chLoc = .last

/-- a built channels-last `HConv2D` layer -/
def LinLayer.IsConv2 (L : LinLayer) (d e : ConvDim) (cinK cout groups : ℕ) : Prop :=
  L.taps = convTaps [d, e] cinK cout groups ∧ L.outShape = [d.out, e.out, cout] ∧ L.chLoc = .last

theorem prodL_append : ∀ (a b : List ℕ), prodL (a ++ b) = prodL a * prodL b
  | [], b => by simp [prodL]
  | d :: a, b => by simp only [List.cons_append, prodL, prodL_append a b, mul_assoc]

theorem unravel_last : ∀ (lead : List ℕ) (cout r c : ℕ), c < cout → r < prodL lead →
    (unravel (lead ++ [cout]) (r * cout + c)).getLastD 0 = c
  | [], cout, r, c, hc, hr => by
    simp [prodL] at hr
    simp [unravel, prodL, hr]
  | d :: ds, cout, r, c, hc, hr => by
    have hds : 0 < prodL ds := by
      by_contra h
      have : prodL ds = 0 := by omega
      simp [prodL, this] at hr
    have hmod : (r * cout + c) % prodL (ds ++ [cout]) = r % prodL ds * cout + c := by
      have e1 : prodL (ds ++ [cout]) = prodL ds * cout := by rw [prodL_append]; simp [prodL]
      rw [e1]
      have h1 : r * cout + c = (r % prodL ds * cout + c) + prodL ds * cout * (r / prodL ds) := by
        conv_lhs => rw [← Nat.mod_add_div r (prodL ds)]
        ring
      rw [h1, Nat.add_mul_mod_self_left, Nat.mod_eq_of_lt]
      have h2 : r % prodL ds + 1 ≤ prodL ds := Nat.mod_lt _ hds
      calc r % prodL ds * cout + c < r % prodL ds * cout + cout := by omega
        _ = (r % prodL ds + 1) * cout := by ring
        _ ≤ _ := Nat.mul_le_mul_right _ h2
    have ih := unravel_last ds cout (r % prodL ds) c hc (Nat.mod_lt _ hds)
    simp only [List.cons_append, unravel, hmod]
    have hne : unravel (ds ++ [cout]) (r % prodL ds * cout + c) ≠ [] := by
      intro h
      have := congrArg List.length h
      rw [unravel_length] at this
      simp at this
    rw [List.getLastD_cons]
    cases hl : unravel (ds ++ [cout]) (r % prodL ds * cout + c) with
    | nil => exact absurd hl hne
    | cons a l =>
      rw [hl] at ih
      rw [List.getLastD_cons] at ih ⊢
      exact ih

theorem preact_eq (L : LinLayer) (k b : ℕ → ℚ) (x : List ℚ) (p : ℕ) :
    L.preact k b x p = tapSum (L.taps p) (fun i => x.getD i 0) k + b (L.chan p) := rfl

/-- output of the layer at one position -/
theorem linear_out (L : LinLayer) (s : QState) (record : Bool) (xs : List (List ℚ)) (hc : (Node.linear L).Clipped s) :
    ∃ s' ys, (Node.linear L).call s record (xs.map fun x => [x]) = .ok (s', ys) ∧ ys.length = xs.length ∧
      ∀ (n : ℕ) x, xs[n]? = some x → ∃ y, ys[n]? = some y ∧ y.length = prodL L.outShape ∧ ∀ p < prodL L.outShape,
        y[p]? = some (L.post (evalQ L.paq.strategy (s.fbw (L.elem p))
          (tapSum (L.taps p) (fun i => x.getD i 0) L.qkernel + L.jitBias s.fbw (L.chan p)))) := by
  refine ⟨_, _, Node.call_eq _ _ _ _ hc, by simp, fun n x hx => ?_⟩
  refine ⟨(Node.linear L).out s.fbw [x], by simp [hx], ?_, fun p hp => ?_⟩
  · simp [Node.out, Node.site]
  · simp only [Node.out, Node.site, List.getElem?_map, List.getElem?_range hp, Option.map_some]
    rfl

/-- **C74**, `HDense`: on every batch, output row `r`, column `c` is the activation of the quantized value of (row `r` of the
input) · (quantized kernel) + (quantized bias). -/
theorem C74_dense (L : LinLayer) (lead : List ℕ) (cin cout : ℕ) (hL : L.IsDense lead cin cout) (s : QState) (record : Bool)
    (xs : List (List ℚ)) (hc : (Node.linear L).Clipped s) :
    ∃ s' ys, (Node.linear L).call s record (xs.map fun x => [x]) = .ok (s', ys) ∧ ys.length = xs.length ∧
      ∀ (n : ℕ) x, xs[n]? = some x → ∃ y, ys[n]? = some y ∧ y.length = prodL lead * cout ∧
        ∀ r < prodL lead, ∀ c < cout,
          y[r * cout + c]? = some (L.post (evalQ L.paq.strategy (s.fbw (L.elem (r * cout + c)))
            (Spec.matmul cin cout (fun i => x.getD i 0) L.qkernel r c + L.jitBias s.fbw c))) := by
  obtain ⟨ht, ho, hl⟩ := hL
  obtain ⟨s', ys, h1, h2, h3⟩ := linear_out L s record xs hc
  have hpr : prodL L.outShape = prodL lead * cout := by rw [ho, prodL_append]; simp [prodL]
  refine ⟨s', ys, h1, h2, fun n x hx => ?_⟩
  obtain ⟨y, hy, hlen, hp⟩ := h3 n x hx
  refine ⟨y, hy, by rw [hlen, hpr], fun r hr c hcc => ?_⟩
  have hlt : r * cout + c < prodL L.outShape := by
    rw [hpr]
    calc r * cout + c < r * cout + cout := by omega
      _ = (r + 1) * cout := by ring
      _ ≤ _ := Nat.mul_le_mul_right _ hr
  rw [hp _ hlt, ht, dense_tapSum cin cout r c hcc]
  have hch : L.chan (r * cout + c) = c := by
    unfold LinLayer.chan chanOf
    rw [hl, ho]
    exact unravel_last lead cout r c hcc hr
  rw [hch]
  rfl

/-- **C74**, `HConv1D` (channels last): output `o`, channel `c` is the activation of the quantized value of the 1-D convolution
of the input with the quantized kernel plus the quantized bias. -/
theorem C74_conv1d (L : LinLayer) (d : ConvDim) (cinK cout groups : ℕ) (hL : L.IsConv1 d cinK cout groups) (s : QState)
    (record : Bool) (xs : List (List ℚ)) (hc : (Node.linear L).Clipped s) :
    ∃ s' ys, (Node.linear L).call s record (xs.map fun x => [x]) = .ok (s', ys) ∧ ys.length = xs.length ∧
      ∀ (n : ℕ) x, xs[n]? = some x → ∃ y, ys[n]? = some y ∧ y.length = d.out * cout ∧
        ∀ o < d.out, ∀ c < cout,
          y[o * cout + c]? = some (L.post (evalQ L.paq.strategy (s.fbw (L.elem (o * cout + c)))
            (Spec.conv1 d.inp cinK groups d.kernel cout d.stride d.dilation d.padLo (fun i => x.getD i 0) L.qkernel o c +
              L.jitBias s.fbw c))) := by
  obtain ⟨ht, ho, hl⟩ := hL
  obtain ⟨s', ys, h1, h2, h3⟩ := linear_out L s record xs hc
  have hpr : prodL L.outShape = d.out * cout := by rw [ho]; simp [prodL]
  refine ⟨s', ys, h1, h2, fun n x hx => ?_⟩
  obtain ⟨y, hy, hlen, hp⟩ := h3 n x hx
  refine ⟨y, hy, by rw [hlen, hpr], fun o hoo c hcc => ?_⟩
  have hlt : o * cout + c < prodL L.outShape := by
    rw [hpr]
    calc o * cout + c < o * cout + cout := by omega
      _ = (o + 1) * cout := by ring
      _ ≤ _ := Nat.mul_le_mul_right _ hoo
  rw [hp _ hlt, ht, conv1_tapSum d cinK cout groups o c hcc hoo]
  have hch : L.chan (o * cout + c) = c := by
    unfold LinLayer.chan chanOf
    rw [hl, ho]
    exact unravel_last [d.out] cout o c hcc (by simpa [prodL] using hoo)
  simp only [hch, pick_padded]
  rfl

/-- **C74**, `HConv2D` (channels last) -/
theorem C74_conv2d (L : LinLayer) (d e : ConvDim) (cinK cout groups : ℕ) (hL : L.IsConv2 d e cinK cout groups) (s : QState)
    (record : Bool) (xs : List (List ℚ)) (hc : (Node.linear L).Clipped s) :
    ∃ s' ys, (Node.linear L).call s record (xs.map fun x => [x]) = .ok (s', ys) ∧ ys.length = xs.length ∧
      ∀ (n : ℕ) x, xs[n]? = some x → ∃ y, ys[n]? = some y ∧ y.length = d.out * e.out * cout ∧
        ∀ o < d.out, ∀ o' < e.out, ∀ c < cout,
          y[(o * e.out + o') * cout + c]? = some (L.post (evalQ L.paq.strategy (s.fbw (L.elem ((o * e.out + o') * cout + c)))
            (Spec.conv2 d.inp e.inp cinK groups d.kernel e.kernel cout d.stride e.stride d.dilation e.dilation d.padLo e.padLo
              (fun i => x.getD i 0) L.qkernel o o' c + L.jitBias s.fbw c))) := by
  obtain ⟨ht, ho, hl⟩ := hL
  obtain ⟨s', ys, h1, h2, h3⟩ := linear_out L s record xs hc
  have hpr : prodL L.outShape = d.out * e.out * cout := by rw [ho]; simp [prodL, mul_assoc]
  refine ⟨s', ys, h1, h2, fun n x hx => ?_⟩
  obtain ⟨y, hy, hlen, hp⟩ := h3 n x hx
  refine ⟨y, hy, by rw [hlen, hpr], fun o hoo o' hoo' c hcc => ?_⟩
  have hro : o * e.out + o' < d.out * e.out := by
    calc o * e.out + o' < o * e.out + e.out := by omega
      _ = (o + 1) * e.out := by ring
      _ ≤ _ := Nat.mul_le_mul_right _ hoo
  have hlt : (o * e.out + o') * cout + c < prodL L.outShape := by
    rw [hpr]
    calc (o * e.out + o') * cout + c < (o * e.out + o') * cout + cout := by omega
      _ = (o * e.out + o' + 1) * cout := by ring
      _ ≤ _ := Nat.mul_le_mul_right _ hro
  rw [hp _ hlt, ht, conv2_tapSum d e cinK cout groups o o' c hcc hoo']
  have hch : L.chan ((o * e.out + o') * cout + c) = c := by
    unfold LinLayer.chan chanOf
    rw [hl, ho]
    exact unravel_last [d.out, e.out] cout _ c hcc (by simpa [prodL] using hro)
  simp only [hch, pick_padded]
  rfl

/-- **C74**, `padding='valid'`: no output reads outside the input, and one more output would. -/
theorem C74_valid_padding (inp kernel stride dilation : ℕ) (hs : 0 < stride) (hk : 0 < kernel)
    (hfit : (kernel - 1) * dilation + 1 ≤ inp) :
    let d := ConvDim.valid inp kernel stride dilation
    (∀ o < d.out, ∀ j < kernel, o * stride + j * dilation < inp) ∧ inp ≤ d.out * stride + (kernel - 1) * dilation := by
  intro d
  set m := (kernel - 1) * dilation + 1 with hm
  have hout : d.out = (inp - m) / stride + 1 := rfl
  have hdiv := Nat.div_add_mod (inp - m) stride
  have hmod := Nat.mod_lt (inp - m) hs
  refine ⟨fun o ho j hj => ?_, ?_⟩
  · rw [hout] at ho
    have h1 : o * stride ≤ (inp - m) / stride * stride := Nat.mul_le_mul_right _ (by omega)
    have h2 : j * dilation ≤ (kernel - 1) * dilation := Nat.mul_le_mul_right _ (by omega)
    have h3 : (inp - m) / stride * stride = stride * ((inp - m) / stride) := mul_comm _ _
    omega
  · rw [hout]
    have h3 : ((inp - m) / stride + 1) * stride = stride * ((inp - m) / stride) + stride := by ring
    omega

/-- **C74**, `padding='same'`: as many outputs as inputs divided by the stride, rounded up, and the padding is split evenly
(the surplus zero at the end). -/
theorem C74_same_padding (inp kernel stride dilation : ℕ) (hs : 0 < stride) (hk : 0 < kernel) (hi : 0 < inp) :
    let d := ConvDim.same inp kernel stride dilation
    let reach := (d.out - 1) * stride + (kernel - 1) * dilation + 1
    (d.out - 1) * stride < inp ∧ inp ≤ d.out * stride ∧
      (inp ≤ reach → 2 * d.padLo ≤ reach - inp ∧ reach - inp ≤ 2 * d.padLo + 1) := by
  intro d reach
  have hout : d.out = (inp + stride - 1) / stride := rfl
  have hdiv := Nat.div_add_mod (inp + stride - 1) stride
  have hmod := Nat.mod_lt (inp + stride - 1) hs
  have hcomm : d.out * stride = stride * ((inp + stride - 1) / stride) := by rw [hout]; ring
  have hpos : 0 < d.out := by rw [hout]; exact Nat.div_pos (by omega) hs
  have hsub : (d.out - 1) * stride = d.out * stride - stride := by rw [Nat.sub_mul, one_mul]
  refine ⟨by omega, by omega, fun _ => ?_⟩
  have hpad : d.padLo = (reach - inp) / 2 := rfl
  omega

/-- a 3x3 image with one channel, a 2x2 kernel, two output channels, `padding='same'` -/
def exConv : LinLayer where
  outShape := [3, 3, 2]
  qShape := [1, 1, 2]
  chLoc := .last
  jitLoc := .last
  nChan := 2
  taps := convTaps [ConvDim.same 3 2 1 1, ConvDim.same 3 2 1 1] 1 2 1
  kernel := fun j => [1, 0, 2, 0, 3, 0, 4, -1].getD j 0
  kq := ⟨0, true, none, fun _ => 1, 7 / 10⟩
  kfbw := fun _ => 3
  bias := none
  reluAct := false
  paq := ⟨3, true, some (-10, 20), fun _ => 1, 7 / 10⟩

example : exConv.IsConv2 (ConvDim.same 3 2 1 1) (ConvDim.same 3 2 1 1) 1 2 1 := ⟨rfl, rfl, rfl⟩

-- 1*1 + 2*2 + 3*4 + 4*5 = 37; at the lower right corner only the first kernel entry is used
example : (match (Node.linear exConv).call ⟨fun _ => 2, fun _ => ⊤, fun _ => ⊥⟩ false [[[1, 2, 3, 4, 5, 6, 7, 8, 9]]] with
    | .ok (_, [y]) => [y.getD 0 0, y.getD 1 0, y.getD 16 0, y.getD 17 0] | _ => []) = [37, -5, 9, 0] := by decide +kernel

example : ((exDense 3 [2] true).taps 0, (exDense 3 [2] true).taps 1) = (denseTaps 2 2 0, denseTaps 2 2 1) := by decide

end HGQ
