import Verif.Props.Bops
import Verif.Model.ChannelsFirst
import Verif.Spec.ChannelsFirst

/-!
C119: a convolution with `data_format='channels_first'` computes the sums of the channels-last one, but reports other BOPs: the number of products is
divided by `prod(output_shape[1:-1])`, which is the number of positions only if the channels are last.
-/

namespace HGQ
open Spec

theorem toFirst_getD {R : Type} [Zero R] (n ch : ℕ) (l : List R) {s c : ℕ} (hs : s < n) (hc : c < ch) :
    (toFirst n ch l).getD (c * n + s) 0 = l.getD (s * ch + c) 0 := by
  obtain ⟨h1, h2⟩ := divmod_lt (a := c) hs
  have hlt : c * n + s < ch * n := by nlinarith
  unfold toFirst
  rw [List.getD_eq_getElem?_getD, List.getElem?_map, List.getElem?_range hlt]
  simp only [Option.map_some, Option.getD_some, h1, h2]

theorem convSrc_valid : ∀ (dims : List ConvDim) (os js s : List ℕ), os.length = dims.length → js.length = dims.length →
    convSrc dims os js = some s → ValidIdx (dims.map ConvDim.inp) s
  | [], [], [], s, _, _, h => by
    simp only [convSrc, Option.some.injEq] at h
    subst h; trivial
  | d :: ds, o :: os, j :: js, s, h1, h2, h => by
    unfold convSrc at h
    rcases src_eq d o j with ⟨e, -, hlt⟩ | ⟨e, -⟩
    · rw [e] at h
      cases hr : convSrc ds os js with
      | none => rw [hr] at h; cases h
      | some ss =>
        rw [hr] at h
        simp only [Option.some.injEq] at h
        subst h
        exact ⟨hlt, convSrc_valid ds os js ss (by simpa using h1) (by simpa using h2) hr⟩
    · rw [e] at h; cases h

/-- output `(c, o)` of the channels-first convolution is output `(o, c)` of the channels-last one -/
theorem first_tapSum {R : Type} [Semiring R] (dims : List ConvDim) (cinK cout groups : ℕ) (hg : groups ∣ cout) {o c : ℕ}
    (ho : o < prodL (dims.map ConvDim.out)) (hc : c < cout) (x : List R) (k : ℕ → R) :
    tapSum (convTapsFirst dims cinK cout groups (c * prodL (dims.map ConvDim.out) + o))
        (fun i => (toFirst (prodL (dims.map ConvDim.inp)) (groups * cinK) x).getD i 0) k =
      tapSum (convTaps dims cinK cout groups (o * cout + c)) (fun i => x.getD i 0) k := by
  obtain ⟨a1, a2⟩ := divmod_lt (a := c) ho
  obtain ⟨b1, b2⟩ := divmod_lt (a := o) hc
  unfold convTapsFirst convTaps
  dsimp only
  rw [a1, a2, b1, b2, tapSum_flatMap, tapSum_flatMap]
  congr 1
  apply List.map_congr_left
  intro j _
  cases hs : convSrc dims (unravel (dims.map ConvDim.out) o) (unravel (dims.map ConvDim.kernel) j) with
  | none => rfl
  | some s =>
    have hv := ravel_lt (convSrc_valid dims _ _ s (by rw [unravel_length, List.length_map]) (by rw [unravel_length, List.length_map]) hs)
    unfold tapSum
    dsimp only
    rw [List.map_map, List.map_map]
    congr 1
    apply List.map_congr_left
    intro ci hci
    have hci := List.mem_range.mp hci
    have hgr : c / (cout / groups) < groups := by
      obtain ⟨m, rfl⟩ := hg
      have hgp : 0 < groups := by rcases Nat.eq_zero_or_pos groups with h | h; · simp [h] at hc
                                  · exact h
      rw [Nat.mul_div_cancel_left _ hgp]
      rw [Nat.div_lt_iff_lt_mul (by rcases Nat.eq_zero_or_pos m with h | h; · simp [h] at hc
                                    · exact h)]
      exact hc
    have hch : c / (cout / groups) * cinK + ci < groups * cinK := by nlinarith
    dsimp only [Function.comp]
    rw [toFirst_getD _ _ x hv hch]

/-- a built channels-last convolution layer of any rank -/
def LinLayer.IsConvLast (L : LinLayer) (dims : List ConvDim) (cinK cout groups : ℕ) : Prop :=
  L.taps = convTaps dims cinK cout groups ∧ L.outShape = dims.map ConvDim.out ++ [cout] ∧ L.chLoc = .last

/-- a built channels-first convolution layer of any rank -/
def LinLayer.IsConvFirst (L : LinLayer) (dims : List ConvDim) (cinK cout groups : ℕ) : Prop :=
  L.taps = convTapsFirst dims cinK cout groups ∧ L.outShape = cout :: dims.map ConvDim.out ∧ L.chLoc = .first

/-- **C119**, values: on the transposed input, the value before quantization at channel `c` and position `o` is that of the channels-last layer, for any
kernel and bias. -/
theorem C119_same_values (L F : LinLayer) (dims : List ConvDim) (cinK cout groups : ℕ) (hL : L.IsConvLast dims cinK cout groups)
    (hF : F.IsConvFirst dims cinK cout groups) (hg : groups ∣ cout) (k b : ℕ → ℚ) (x : List ℚ) (o c : ℕ)
    (ho : o < prodL (dims.map ConvDim.out)) (hc : c < cout) :
    F.preact k b (toFirst (prodL (dims.map ConvDim.inp)) (groups * cinK) x) (c * prodL (dims.map ConvDim.out) + o) =
      L.preact k b x (o * cout + c) := by
  obtain ⟨t1, s1, l1⟩ := hL
  obtain ⟨t2, s2, l2⟩ := hF
  have e1 : L.chan (o * cout + c) = c := by
    unfold LinLayer.chan chanOf atLoc
    rw [l1, s1]
    exact unravel_last _ _ _ _ hc ho
  have e2 : F.chan (c * prodL (dims.map ConvDim.out) + o) = c := by
    unfold LinLayer.chan chanOf atLoc
    rw [l2, s2]
    simp [unravel, (divmod_lt (a := c) ho).1]
  unfold LinLayer.preact
  rw [e1, e2, t1, t2]
  congr 1
  exact first_tapSum dims cinK cout groups hg ho hc x k

theorem first_mulBits {L F : LinLayer} {dims : List ConvDim} {cinK cout groups : ℕ} (hL : L.IsConvLast dims cinK cout groups)
    (hF : F.IsConvFirst dims cinK cout groups) (hg : groups ∣ cout) (a kb : List ℤ) :
    F.mulBits (toFirst (prodL (dims.map ConvDim.inp)) (groups * cinK) a) kb = L.mulBits a kb := by
  obtain ⟨t1, s1, -⟩ := hL
  obtain ⟨t2, s2, -⟩ := hF
  rw [mulBits_eq, mulBits_eq, t1, t2, s1, s2, prodL_append]
  simp only [prodL, mul_one]
  rw [sum_range_mul, sum_range_mul, Finset.sum_comm]
  refine Finset.sum_congr rfl fun o ho => Finset.sum_congr rfl fun c hc => ?_
  exact first_tapSum dims cinK cout groups hg (Finset.mem_range.mp ho) (Finset.mem_range.mp hc) a _

theorem prodL_dims (dims : List ConvDim) (d : ConvDim) :
    prodL ((dims ++ [d]).map ConvDim.out) = prodL (dims.map ConvDim.out) * d.out := by
  rw [List.map_append, prodL_append]; simp [prodL]

theorem first_shape {L F : LinLayer} {dims : List ConvDim} {d : ConvDim} {cinK cout groups : ℕ} (hL : L.IsConvLast (dims ++ [d]) cinK cout groups)
    (hF : F.IsConvFirst (dims ++ [d]) cinK cout groups) :
    prodL L.outShape.dropLast = prodL (dims.map ConvDim.out) * d.out ∧ prodL F.outShape.dropLast = cout * prodL (dims.map ConvDim.out) := by
  constructor
  · rw [hL.2.1, List.dropLast_concat, prodL_dims]
  · rw [hF.2.1, List.map_append, ← List.cons_append, List.map_cons, List.map_nil, List.dropLast_concat]
    rfl

/-- a number of products, divided by the two numbers the layers take for the number of positions -/
theorem ratio {m pf : ℚ} {n d c : ℕ} (hn : 0 < n) (hd : 0 < d) (hc : 0 < c) :
    m * pf / ((c * n : ℕ) : ℚ) = m * pf / ((n * d : ℕ) : ℚ) * d / c := by
  have : (n : ℚ) ≠ 0 := by positivity
  have : (d : ℚ) ≠ 0 := by positivity
  have : (c : ℚ) ≠ 0 := by positivity
  push_cast
  field_simp

/-- **C119**, exact BOPs: a channels-first convolution reports the BOPs `b` of the channels-last one times the last dimension of the output, divided by
the number of output channels. Any rank, kernel, bits of inputs and weights. -/
theorem C119_exact (L F : LinLayer) (dims : List ConvDim) (d : ConvDim) (cinK cout groups nw pf : ℕ) (hL : L.IsConvLast (dims ++ [d]) cinK cout groups)
    (hF : F.IsConvFirst (dims ++ [d]) cinK cout groups) (hg : groups ∣ cout) (fl : ℚ → ℚ) (hk : F.kernelBits fl nw = L.kernelBits fl nw)
    (hn : 0 < prodL (dims.map ConvDim.out)) (hd : 0 < d.out) (hc : 0 < cout) (a : List ℤ) :
    ∃ b : ℚ, (Node.linear L).exactBops (.conv nw pf) fl (.ok a) = .ok b ∧
      (Node.linear F).exactBops (.conv nw pf) fl (.ok (toFirst (prodL ((dims ++ [d]).map ConvDim.inp)) (groups * cinK) a)) =
        .ok (b * d.out / cout) := by
  obtain ⟨s1, s2⟩ := first_shape hL hF
  refine ⟨_, rfl, ?_⟩
  unfold Node.exactBops
  simp only [bind, Except.bind, pure, Except.pure]
  rw [hk, first_mulBits hL hF hg, s1, s2, ratio hn hd hc]

/-- **C119**, BOPs during training: the same factor -/
theorem C119_train (L F : LinLayer) (dims : List ConvDim) (d : ConvDim) (cinK cout groups nw pf : ℕ) (hL : L.IsConvLast (dims ++ [d]) cinK cout groups)
    (hF : F.IsConvFirst (dims ++ [d]) cinK cout groups) (hg : groups ∣ cout) (hk : F.kernelBitsTrain nw = L.kernelBitsTrain nw)
    (hn : 0 < prodL (dims.map ConvDim.out)) (hd : 0 < d.out) (hc : 0 < cout) (a : List ℤ) :
    (Node.linear F).trainBops (.conv nw pf) (toFirst (prodL ((dims ++ [d]).map ConvDim.inp)) (groups * cinK) a) =
      (Node.linear L).trainBops (.conv nw pf) a * d.out / cout := by
  obtain ⟨s1, s2⟩ := first_shape hL hF
  unfold Node.trainBops
  simp only
  rw [hk, first_mulBits hL hF hg, s1, s2, ratio hn hd hc]

/-- **C119**, exactly when it holds: the two formats report the same exact BOPs if and only if the last dimension of the output is as large as the number
of channels, or there are no BOPs at all. -/
theorem C119_iff (L F : LinLayer) (dims : List ConvDim) (d : ConvDim) (cinK cout groups nw pf : ℕ) (hL : L.IsConvLast (dims ++ [d]) cinK cout groups)
    (hF : F.IsConvFirst (dims ++ [d]) cinK cout groups) (hg : groups ∣ cout) (fl : ℚ → ℚ) (hk : F.kernelBits fl nw = L.kernelBits fl nw)
    (hn : 0 < prodL (dims.map ConvDim.out)) (hd : 0 < d.out) (hc : 0 < cout) (a : List ℤ) :
    (Node.linear F).exactBops (.conv nw pf) fl (.ok (toFirst (prodL ((dims ++ [d]).map ConvDim.inp)) (groups * cinK) a)) =
        (Node.linear L).exactBops (.conv nw pf) fl (.ok a) ↔
      d.out = cout ∨ (Node.linear L).exactBops (.conv nw pf) fl (.ok a) = .ok 0 := by
  obtain ⟨b, h1, h2⟩ := C119_exact L F dims d cinK cout groups nw pf hL hF hg fl hk hn hd hc a
  rw [h1, h2, Except.ok.injEq, Except.ok.injEq]
  have hc' : (cout : ℚ) ≠ 0 := by positivity
  rw [div_eq_iff hc']
  constructor
  · intro h
    by_cases hb : b = 0
    · exact .inr hb
    · exact .inl (by exact_mod_cast mul_left_cancel₀ hb h)
  · rintro (h | h) <;> simp [h]

/-- **C119**, the part that holds: BOPs do not depend on the format if the last dimension of the output is the number of channels -/
theorem C119_same_bops_partial (L F : LinLayer) (dims : List ConvDim) (d : ConvDim) (cinK cout groups nw pf : ℕ)
    (hL : L.IsConvLast (dims ++ [d]) cinK cout groups) (hF : F.IsConvFirst (dims ++ [d]) cinK cout groups) (hg : groups ∣ cout) (fl : ℚ → ℚ)
    (hk : F.kernelBits fl nw = L.kernelBits fl nw) (hkt : F.kernelBitsTrain nw = L.kernelBitsTrain nw)
    (hn : 0 < prodL (dims.map ConvDim.out)) (hd : d.out = cout) (hc : 0 < cout) (a : List ℤ) :
    (Node.linear F).exactBops (.conv nw pf) fl (.ok (toFirst (prodL ((dims ++ [d]).map ConvDim.inp)) (groups * cinK) a)) =
        (Node.linear L).exactBops (.conv nw pf) fl (.ok a) ∧
      (Node.linear F).trainBops (.conv nw pf) (toFirst (prodL ((dims ++ [d]).map ConvDim.inp)) (groups * cinK) a) =
        (Node.linear L).trainBops (.conv nw pf) a := by
  refine ⟨(C119_iff L F dims d cinK cout groups nw pf hL hF hg fl hk hn (hd ▸ hc) hc a).mpr (.inl hd), ?_⟩
  rw [C119_train L F dims d cinK cout groups nw pf hL hF hg hkt hn (hd ▸ hc) hc a, hd]
  have : (cout : ℚ) ≠ 0 := by positivity
  field_simp

/-! ### A concrete layer: 4 positions, 1 channel, kernel of length 2, 2 filters -/

def exConvL : LinLayer :=
  { exDense 0 [1] false with
    outShape := [3, 2], qShape := [1, 1], chLoc := .last, jitLoc := .last, nChan := 2, taps := convTaps [ConvDim.valid 4 2 1 1] 1 2 1, bias := none }

def exConvF : LinLayer :=
  { exConvL with outShape := [2, 3], chLoc := .first, taps := convTapsFirst [ConvDim.valid 4 2 1 1] 1 2 1 }

-- the hypotheses of the theorems hold for them
example : exConvL.IsConvLast ([] ++ [ConvDim.valid 4 2 1 1]) 1 2 1 ∧ exConvF.IsConvFirst ([] ++ [ConvDim.valid 4 2 1 1]) 1 2 1 ∧ 1 ∣ 2 ∧
    exConvF.kernelBits id 4 = exConvL.kernelBits id 4 ∧ exConvF.kernelBitsTrain 4 = exConvL.kernelBitsTrain 4 ∧
    0 < prodL (([] : List ConvDim).map ConvDim.out) ∧ 0 < (ConvDim.valid 4 2 1 1).out :=
  ⟨⟨rfl, rfl, rfl⟩, ⟨rfl, rfl, rfl⟩, by decide, rfl, rfl, by decide, by decide⟩

-- same values, transposed
example : (List.range 6).map (exConvL.pre (fun _ => 2) [1, 2, 3, 4]) = [2, 1 / 2, 7 / 2, 0, 5, -1 / 2] ∧
    (List.range 6).map (exConvF.pre (fun _ => 2) (toFirst 4 1 [1, 2, 3, 4])) = [2, 7 / 2, 5, 1 / 2, 0, -1 / 2] := by decide +kernel

/-- **C119** fails: the same convolution on the same data, once channels last and once channels first; the reported BOPs differ, exact ones and those
during training. -/
theorem C119_fails :
    (Node.linear exConvF).exactBops (.conv 4 1) id (.ok (toFirst 4 1 [3, 3, 3, 3])) ≠ (Node.linear exConvL).exactBops (.conv 4 1) id (.ok [3, 3, 3, 3]) ∧
    (Node.linear exConvF).trainBops (.conv 4 1) (toFirst 4 1 [3, 3, 3, 3]) ≠ (Node.linear exConvL).trainBops (.conv 4 1) [3, 3, 3, 3] := by
  decide +kernel

end HGQ
