import Verif.Lemmas.Deploy
import Verif.Lemmas.Attained
import Verif.Lemmas.FitsGraph

/-!
The activation quantizers of a deployed network are quantizers made from ranges recorded on the calibration samples.
-/

namespace HGQ

open Spec

/-- extra fractional bits of the quantizer in front of a ReLU -/
def reluAdd (R : Rnd) : ℤ := if R = .TRN then 0 else if R = .RND then 1 else 2

/-- where the layer's value is positive, the quantizer behind the ReLU sees an input that it rounds to this value -/
theorem relu_feed {mn mx fbw v z : ℚ} {K I F : ℤ} (c : ReluCtx mn mx fbw v K I F) (hv0 : 0 < v) {S : Sat} (hS : S ≠ .SAT_SYM) {R : Rnd}
    (hR : R = .TRN ∨ R = .RND) (hv : rndMap R (z * p2 (tfRound fbw)) * p2 (-tfRound fbw) = v) :
    rndMap R (relu ((KBI.init K (K + I + F + reluAdd R) (K + I)).apply .TRN S z) * p2 (tfRound fbw)) * p2 (-tfRound fbw) = v := by
  obtain ⟨hfF, hup, hlow, hw, hIf⟩ := c.facts (lt_of_lt_of_le hv0 c.h2)
  obtain ⟨n, hn⟩ := c.gv
  set f := tfRound fbw with hfdef
  have hpf := p2_pos f
  have hpnf := p2_pos (-f)
  have hn1 : (1 : ℚ) ≤ n := by
    have : (0 : ℚ) < n := by
      by_contra hc; push Not at hc
      rw [hn] at hv0
      have := mul_nonpos_of_nonpos_of_nonneg hc hpnf.le
      linarith
    have : 0 < n := by exact_mod_cast this
    exact_mod_cast (by omega : 1 ≤ n)
  have hrn : rndMap R (z * p2 f) = n := by
    have h1 : rndMap R (z * p2 f) * p2 (-f) = n * p2 (-f) := by rw [hv, hn]
    exact mul_right_cancel₀ hpnf.ne' h1
  -- truncation to finer steps keeps the bounds of the rounding
  have trunc : ∀ (G : ℤ) (c1 c2 : ℚ), (∃ k : ℤ, c1 * p2 (G - f) = k) → c1 ≤ z * p2 f → z * p2 f < c2 →
      c1 ≤ (flr (z * p2 G) : ℚ) * p2 (-G) * p2 f ∧ (flr (z * p2 G) : ℚ) * p2 (-G) * p2 f < c2 := by
    rintro G c1 c2 ⟨k, hk⟩ h1 h2
    have e2 : p2 f * p2 (G - f) = p2 G := by rw [← p2_add]; congr 1; ring
    have e3 : p2 (G - f) * p2 (f - G) = 1 := by rw [← p2_add]; simp [p2_zero]
    have e4 : p2 (f - G) = p2 (-G) * p2 f := by rw [← p2_add]; congr 1; ring
    constructor
    · have h3 : (k : ℚ) ≤ z * p2 G := by
        rw [← hk, ← e2, ← mul_assoc]
        exact mul_le_mul_of_nonneg_right h1 (p2_pos _).le
      have h4 : k ≤ flr (z * p2 G) := Int.le_floor.mpr h3
      have h5 : (k : ℚ) ≤ flr (z * p2 G) := by exact_mod_cast h4
      have h6 := mul_le_mul_of_nonneg_right h5 (p2_pos (f - G)).le
      rw [← hk, mul_assoc, e3, mul_one, e4, ← mul_assoc] at h6
      exact h6
    · have h3 : ((flr (z * p2 G) : ℤ) : ℚ) ≤ z * p2 G := Int.floor_le _
      have h4 := mul_le_mul_of_nonneg_right h3 (p2_pos (-G)).le
      rw [mul_assoc, p2_mul_neg, mul_one] at h4
      exact lt_of_le_of_lt (mul_le_mul_of_nonneg_right h4 hpf.le) h2
  -- the first quantizer passes the value on
  have pass : ∀ G : ℤ, F ≤ G → K + I + F + reluAdd R = K + I + G →
      0 < (flr (z * p2 G) : ℚ) * p2 (-G) → (flr (z * p2 G) : ℚ) * p2 (-G) * p2 f < n + 1 →
      relu ((KBI.init K (K + I + F + reluAdd R) (K + I)).apply .TRN S z) = (flr (z * p2 G) : ℚ) * p2 (-G) := by
    intro G hG hb h0 hlt
    have hupt : (flr (z * p2 G) : ℚ) * p2 (-G) < p2 I := by
      have := mul_lt_mul_of_pos_right hlt hpnf
      rw [mul_assoc ((flr (z * p2 G) : ℚ) * p2 (-G)), p2_mul_neg, mul_one] at this
      rw [hn] at hup
      linarith
    have hkif : IsKif K I G ((flr (z * p2 G) : ℚ) * p2 (-G)) := by
      refine ⟨⟨_, rfl⟩, ?_, hupt⟩
      have : (0 : ℚ) ≤ (K : ℚ) * p2 I := by
        have : (0 : ℚ) ≤ K := by rcases c.hK with h | h <;> rw [h] <;> norm_num
        exact mul_nonneg this (p2_pos I).le
      change -((K : ℚ) * p2 I) ≤ _
      linarith
    rw [init_apply, hb, show gfixedQuantizer z K (K + I + G) (K + I) .TRN S = _ from
      gfixed_of_isKif c.hK (by omega) .TRN hS hkif]
    exact max_eq_left h0.le
  rcases hR with rfl | rfl
  · have hfl : flr (z * p2 f) = n := by
      have : ((flr (z * p2 f) : ℤ) : ℚ) = n := hrn
      exact_mod_cast this
    obtain ⟨b1, b2⟩ := Int.floor_eq_iff.mp hfl
    obtain ⟨k, hk, -⟩ := p2_int_of_nonneg (a := F - f) (by omega)
    obtain ⟨t1, t2⟩ := trunc F n (n + 1) ⟨n * k, by rw [hk]; push_cast; ring⟩ b1 b2
    have h0 : 0 < (flr (z * p2 F) : ℚ) * p2 (-F) := by
      by_contra hc; push Not at hc
      have := mul_nonpos_of_nonpos_of_nonneg hc hpf.le
      linarith
    rw [pass F le_rfl (by simp [reluAdd]) h0 t2]
    change ((flr _ : ℤ) : ℚ) * _ = _
    rw [show flr ((flr (z * p2 F) : ℚ) * p2 (-F) * p2 f) = n from Int.floor_eq_iff.mpr ⟨t1, t2⟩, hn]
  · have hfl : flr (z * p2 f + 1 / 2) = n := by
      have : ((flr (z * p2 f + 1 / 2) : ℤ) : ℚ) = n := hrn
      exact_mod_cast this
    obtain ⟨b1, b2⟩ := Int.floor_eq_iff.mp hfl
    obtain ⟨k, hk, -⟩ := p2_int_of_nonneg (a := F - f) (by omega)
    obtain ⟨t1, t2⟩ := trunc (F + 1) (n - 1 / 2) (n + 1 / 2) ⟨(2 * n - 1) * k, by
      rw [show F + 1 - f = F - f + 1 by ring, p2_succ, hk]; push_cast; ring⟩ (by linarith) (by linarith)
    have h0 : 0 < (flr (z * p2 (F + 1)) : ℚ) * p2 (-(F + 1)) := by
      by_contra hc; push Not at hc
      have := mul_nonpos_of_nonpos_of_nonneg hc hpf.le
      linarith
    rw [pass (F + 1) (by omega) (by simp [reluAdd]; ring) h0 (by linarith)]
    change ((flr _ : ℤ) : ℚ) * _ = _
    rw [show flr ((flr (z * p2 (F + 1)) : ℚ) * p2 (-(F + 1)) * p2 f + 1 / 2) = n from
      Int.floor_eq_iff.mpr ⟨by linarith, by linarith⟩, hn]

/-! ### what the quantizer of a node sees -/

/-- the layers in front of the activation quantizer of a node -/
def Node.init (nd : Node) (s : QState) (S : Sat) (d : Desc) : List PLay := (nd.lays s S d).dropLast

/-- the values handed to the layer behind a chain of layers -/
def feedIns (ls : List PLay) (vin : List (List ℚ)) : List (List ℚ) :=
  match (chainVals ls vin).getLast? with
  | none => vin
  | some v => [v]

/-- whether the quantizer of the node is made for non-negative values only -/
def Node.posOnly : Node → Bool
  | .linear L => L.reluAct
  | _ => false

/-- whether the bias of the node absorbs the rounding -/
def Node.covered : Node → Bool
  | .linear L => L.canBiasCover
  | _ => false

theorem Node.lays_split {nd : Node} {q : QSite} (hq : nd.site = some q) (s : QState) (S : Sat) (d : Desc) :
    nd.lays s S d = nd.init s S d ++ [q.quantLay s S nd.posOnly nd.covered] := by
  unfold Node.init
  cases nd with
  | quantize q' => cases hq; rfl
  | activation kind φ q' => cases hq; rfl
  | add q' => cases hq; rfl
  | linear L =>
    cases hq
    cases hr : L.reluAct <;> simp [Node.lays, hr, Node.posOnly, Node.covered]
  | passive g => cases hq

/-- The quantizer of a node rounds what it sees to the layer's value, unless that is zero, or not positive behind a ReLU. -/
theorem Node.feed_round {nd : Node} {d : Desc} (hd : nd.Described d) {s : QState} (hw : nd.WF s) (ht : nd.AllTraced s) {S : Sat}
    (hS : S ≠ .SAT_SYM) {q : QSite} (hq : nd.site = some q) {ins : List (List ℚ)} (hr : nd.InRange s ins) {p : ℕ} (hp : p < prodL q.outShape)
    (hv : nd.quantAt q s.fbw ins p ≠ 0) (hpos : nd.posOnly = true → 0 < nd.quantAt q s.fbw ins p) :
    rndMap (proxyRnd q.conf.strategy nd.covered)
      (at0 ((feedIns (nd.init s S d) ins).headD []) p * p2 (tfRound (s.fbw (q.elem p)))) * p2 (-tfRound (s.fbw (q.elem p)))
      = nd.quantAt q s.fbw ins p := by
  have base : ∀ v, nd.covered = false → v = nd.preAt s.fbw ins p →
      rndMap (proxyRnd q.conf.strategy nd.covered) (v * p2 (tfRound (s.fbw (q.elem p)))) * p2 (-tfRound (s.fbw (q.elem p)))
        = nd.quantAt q s.fbw ins p := by
    intro v hc hv
    rw [hc, proxyRnd_uncovered, hv]
    exact (evalQ_rndMap _ _ _).symm
  cases nd with
  | quantize q' => cases hq; exact base _ rfl rfl
  | activation kind φ q' =>
    cases hq
    refine base _ rfl ?_
    have := (hd.act kind φ q rfl).2 ins
    change at0 (d.klayer.eval ins) p = _
    rw [this]
    rfl
  | add q' =>
    cases hq
    refine base _ rfl ?_
    exact at0_map_range _ hp
  | passive g => cases hq
  | linear L =>
    cases hq
    have hwf : L.WF s := ⟨hw.shape _ rfl, hw.clip _ rfl, hw.loc L rfl⟩
    have hquant : L.quant s (ins.headD []) p = Node.quantAt (.linear L) ⟨L.paq, L.outShape, L.qShape⟩ s.fbw ins p := by
      unfold LinLayer.quant
      rw [hwf.clip]; rfl
    obtain ⟨lo, hi, htr⟩ := ht _ rfl (L.elem p) (elemOf_lt (hw.shape _ rfl) hp)
    have hin := hr _ rfl p hp
    change s.mn (L.elem p) ≤ _ ∧ _ ≤ s.mx (L.elem p) at hin
    rw [htr.mn, htr.mx] at hin
    have h1 : lo ≤ L.quant s (ins.headD []) p := by rw [hquant]; exact WithTop.coe_le_coe.mp hin.1
    have h2 : L.quant s (ins.headD []) p ≤ hi := by rw [hquant]; exact WithBot.coe_le_coe.mp hin.2
    have hm : L.bias = none ∨ L.biasMask s (L.chan p) = true := by
      by_contra hc
      push Not at hc
      apply hv
      rw [← hquant]
      have hm' : L.biasMask s (L.chan p) = false := by simpa using hc.2
      have hz := C23_pruned_hgq_zero L s (ins.headD []) p hp lo hi htr hm' h1 h2
      cases hrl : L.reluAct with
      | false => simpa [LinLayer.post, hrl] using hz
      | true =>
        have h0 := hpos (by simpa [Node.posOnly] using hrl)
        rw [← hquant] at h0
        simp only [LinLayer.post, hrl, if_true] at hz
        have : relu (L.quant s (ins.headD []) p) = L.quant s (ins.headD []) p := max_eq_left h0.le
        rw [this] at hz
        exact hz
    have hround := pre_round hwf hp (ins.headD []) hm
    rw [← hquant]
    cases hrl : L.reluAct with
    | false =>
      have e : feedIns ((Node.linear L).init s S d) ins = [(L.kerasLay s d).eval ins] := by
        simp [feedIns, Node.init, Node.lays, hrl, chainVals]
      rw [e, List.headD_cons, kerasLay_eval hd, at0_map_range _ hp]
      exact hround
    | true =>
      have e : feedIns ((Node.linear L).init s S d) ins =
          [(PLay.act false .other relu).eval [(L.preReluLay s S).eval [(L.kerasLay s d).eval ins]]] := by
        simp [feedIns, Node.init, Node.lays, hrl, chainVals]
      have e1 : ∀ v : List ℚ, (PLay.act false .other relu).eval [v] = v.map relu := fun _ => rfl
      rw [e, List.headD_cons, e1, preRelu_eval L (hw.shape _ rfl), List.map_map, at0_map_range _ hp, kerasLay_eval hd]
      simp only [Function.comp]
      rw [at0_map_range _ hp]
      have hR : proxyRnd L.paq.strategy L.canBiasCover = .TRN ∨ proxyRnd L.paq.strategy L.canBiasCover = .RND := by
        unfold proxyRnd; split_ifs <;> simp
      have ctx := reluCtx_of hwf hp htr h1 h2 (fun e _ => hw.fb _ rfl e)
      exact relu_feed ctx (by rw [hquant]; exact hpos (by simpa [Node.posOnly] using hrl)) hS hR hround

end HGQ
