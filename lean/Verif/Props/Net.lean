import Verif.Lemmas.Net

/-!
C26, C27: layers without a kernel, and whole models, equal their proxies.
-/

namespace HGQ
open Spec

/-- Every element of the node's quantizer has recorded a range. -/
def Node.AllTraced (nd : Node) (s : QState) : Prop :=
  ∀ q, nd.site = some q → ∀ e < prodL q.qShape, ∃ lo hi, Traced s e lo hi

/-- the activation functions singled out by `trace_minmax` have the ranges it assumes -/
def ActOk : ActKind → (List ℚ → List ℚ) → Prop
  | .softmax, φ => ∀ x p, 0 ≤ (φ x).getD p 0 ∧ (φ x).getD p 0 ≤ 1
  | .sigmoid, φ => ∀ x p, 0 ≤ (φ x).getD p 0 ∧ (φ x).getD p 0 ≤ 1
  | .tanh, φ => ∀ x p, -1 ≤ (φ x).getD p 0 ∧ (φ x).getD p 0 ≤ 1
  | .other, _ => True

/-- A built layer with its quantizer state: the quantizer broadcasts against the output, its bitwidths are within the
clip range (after any call, `C15_clip_invariant`) and at least -32, channels are located consistently (or there is a single bitwidth,
or no bias), and softmax,
sigmoid and tanh have non-negative fractional bits (`C63_tanh_negative_bits` for what happens otherwise). -/
structure Node.WF (nd : Node) (s : QState) : Prop where
  shape : ∀ q, nd.site = some q → Compat q.outShape q.qShape
  clip : ∀ q, nd.site = some q → ∀ e, q.conf.clip (s.fbw e) = s.fbw e
  fb : ∀ q, nd.site = some q → ∀ e, -32 ≤ s.fbw e
  loc : ∀ L, nd = .linear L → L.jitLoc = L.chLoc ∨ (prodL L.qShape = 1 ∧ L.qShape ≠ []) ∨ L.bias = none
  act : ∀ kind φ q, nd = .activation kind φ q → ActOk kind φ ∧ (kind ≠ .other → ∀ e, 0 ≤ tfRound (s.fbw e))

theorem Node.WF.congr {nd : Node} {s s' : QState} (h : nd.WF s) (he : s'.fbw = s.fbw) : nd.WF s' :=
  ⟨h.shape, by rw [he]; exact h.clip, by rw [he]; exact h.fb, h.loc, by rw [he]; exact h.act⟩

/-- recorded ranges below `2^32` in magnitude -/
def Bounded (_ : Node) (s : QState) : Prop :=
  ∀ e, (∀ v : ℚ, s.mn e = (v : WithTop ℚ) → -(2 : ℚ) ^ (32 : ℤ) ≤ v) ∧
    (∀ v : ℚ, s.mx e = (v : WithBot ℚ) → v < (2 : ℚ) ^ (32 : ℤ))

/-! ### C27 -/

theorem proxyRnd_uncovered (st : ℤ) : proxyRnd st false = evalRnd st := by
  unfold proxyRnd evalRnd
  by_cases h : st = 3 <;> simp [h]

theorem site_proxy (q : QSite) (s : QState) (aggressive : Bool) (x : ℚ) (p : ℕ) (lo hi : ℚ)
    (ht : Traced s (q.elem p) lo hi)
    (h1 : lo ≤ evalQ q.conf.strategy (s.fbw (q.elem p)) x) (h2 : evalQ q.conf.strategy (s.fbw (q.elem p)) x ≤ hi) :
    (proxyQ (q.bitsAt s p)).apply (proxyRnd q.conf.strategy false) (proxySat aggressive) x =
      evalQ q.conf.strategy (s.fbw (q.elem p)) x := by
  unfold QSite.bitsAt
  rw [ht.mn, ht.mx, WithTop.untopD_coe, WithBot.unbotD_coe]
  exact C20_hquantize_eq_proxy q.conf aggressive lo hi _ x 0 _ (C11_inference_total _ _ _ _) h1 h2 ht.fb ht.lb ht.ub

/-- C27, activations: for any function `φ` (acting on the whole sample), wherever the quantized value is in the
recorded range the proxy returns the quantizer's value at `φ(x)`. -/
theorem C27_activation_eq_proxy (kind : ActKind) (φ : List ℚ → List ℚ) (q : QSite) (s : QState) (aggressive : Bool)
    (x : List ℚ) (p : ℕ) (noise v lo hi : ℚ) (ht : Traced s (q.elem p) lo hi)
    (hv : q.conf.forward (s.fbw (q.elem p)) ((φ x).getD p 0) noise false = .ok v) (h1 : lo ≤ v) (h2 : v ≤ hi) :
    (Node.activation kind φ q).proxyAt s (proxySat aggressive) [x] p = v := by
  rw [C11_inference_total] at hv
  have : evalQ q.conf.strategy (s.fbw (q.elem p)) ((φ x).getD p 0) = v := by injection hv
  subst this
  exact site_proxy q s aggressive _ p lo hi ht h1 h2

/-- C27, addition of any number of tensors. -/
theorem C27_add_eq_proxy (q : QSite) (s : QState) (aggressive : Bool) (xs : List (List ℚ)) (p : ℕ)
    (noise v lo hi : ℚ) (ht : Traced s (q.elem p) lo hi)
    (hv : q.conf.forward (s.fbw (q.elem p)) (xs.map fun x => x.getD p 0).sum noise false = .ok v)
    (h1 : lo ≤ v) (h2 : v ≤ hi) :
    (Node.add q).proxyAt s (proxySat aggressive) xs p = v := by
  rw [C11_inference_total] at hv
  have : evalQ q.conf.strategy (s.fbw (q.elem p)) (xs.map fun x => x.getD p 0).sum = v := by injection hv
  subst this
  exact site_proxy q s aggressive _ p lo hi ht h1 h2

/-- squares, quantized per element with 1 and 2 fractional bits -/
def exAct : QSite := ⟨⟨0, true, some (-10, 20), fun _ => 1, 7 / 10⟩, [2], [2]⟩

example : Traced exState (exAct.elem 1) (-2) (7 / 4) ∧
    exAct.conf.forward (exState.fbw (exAct.elem 1)) (([1 / 2, 3 / 4] : List ℚ).map (fun v => v * v) |>.getD 1 0) 0 false
      = .ok (1 / 2) ∧
    (Node.activation .other (List.map fun v => v * v) exAct).proxyAt exState .WRAP [[1 / 2, 3 / 4]] 1 = 1 / 2 :=
  ⟨exState_traced1, by decide +kernel, by decide +kernel⟩

example : (Node.add exAct).proxyAt exState .SAT [[1 / 2, 3 / 4], [1, 1 / 4], [1 / 8, 1 / 8]] 1 = 5 / 4 := by
  decide +kernel

/-! ### C26: one node -/

theorem Node.traced_of {nd : Node} {s : QState} (hw : nd.WF s) (hg : GridState s) (hb : Bounded nd s)
    {ins : List (List ℚ)} (hr : nd.InRange s ins) : nd.AllTraced s := by
  intro q hq e he
  obtain ⟨p, hp, rfl⟩ := elemOf_surj (hw.shape q hq) he
  have h := hr q hq p hp
  change s.mn (elemOf q.outShape q.qShape p) ≤ _ ∧ _ ≤ s.mx (elemOf q.outShape q.qShape p) at h
  set e := elemOf q.outShape q.qShape p with hee
  obtain ⟨lo, hlo⟩ : ∃ lo : ℚ, s.mn e = (lo : WithTop ℚ) := by
    cases hm : s.mn e with
    | top => rw [hm] at h; exact absurd h.1 (by simp)
    | coe v => exact ⟨v, rfl⟩
  obtain ⟨hi, hhi⟩ : ∃ hi : ℚ, s.mx e = (hi : WithBot ℚ) := by
    cases hm : s.mx e with
    | bot => rw [hm] at h; exact absurd h.2 (by simp)
    | coe v => exact ⟨v, rfl⟩
  refine ⟨lo, hi, hlo, hhi, ?_, (hg e).1 lo hlo, (hg e).2 hi hhi, (hb e).1 lo hlo, (hb e).2 hi hhi, hw.fb q hq e⟩
  rw [hlo, hhi] at h
  exact le_trans (WithTop.coe_le_coe.mp h.1) (WithBot.coe_le_coe.mp h.2)

theorem Node.toProxy_ok {nd : Node} {s : QState} (ht : nd.AllTraced s) (S : Sat) :
    ∃ f, nd.toProxy s S = .ok f ∧ ∀ ins, f ins = match nd.site with
      | none => nd.pre s.fbw ins
      | some q => (List.range (prodL q.outShape)).map (nd.proxyAt s S ins) := by
  unfold Node.toProxy
  cases hs : nd.site with
  | none => exact ⟨_, rfl, fun _ => rfl⟩
  | some q =>
    have : (List.range (prodL q.qShape)).all (fun e => rangeOk (s.mn e) (s.mx e)) = true := by
      rw [List.all_eq_true]
      intro e he
      obtain ⟨lo, hi, h⟩ := ht q hs e (List.mem_range.mp he)
      rw [h.mn, h.mx]
      change decide (0 ≤ hi - lo) = true
      have := h.le
      simpa using this
    simp only [QState.getBitsExact, this, if_true]
    exact ⟨_, rfl, fun _ => rfl⟩

/-- C26 for one layer of any kind: if the recorded ranges cover the layer's values on these inputs, `to_proxy_model`
accepts the layer and its proxy gives the layer's inference output on the whole tensor. -/
theorem Node.proxy_eq {nd : Node} {s : QState} (hw : nd.WF s) (ht : nd.AllTraced s) (aggressive : Bool)
    {f : List (List ℚ) → List ℚ} (hf : nd.toProxy s (proxySat aggressive) = .ok f)
    {ins : List (List ℚ)} (hr : nd.InRange s ins) : f ins = nd.out s.fbw ins := by
  obtain ⟨f', hf', h⟩ := nd.toProxy_ok ht (proxySat aggressive)
  rw [hf] at hf'
  cases hf'
  rw [h]
  unfold Node.out
  cases hs : nd.site with
  | none => rfl
  | some q =>
    simp only
    apply List.map_congr_left
    intro p hp
    have hp := List.mem_range.mp hp
    have hin := hr q hs p hp
    obtain ⟨lo, hi, htr⟩ := ht q hs (q.elem p) (elemOf_lt (hw.shape q hs) hp)
    rw [htr.mn, htr.mx] at hin
    have h1 := WithTop.coe_le_coe.mp hin.1
    have h2 := WithBot.coe_le_coe.mp hin.2
    cases nd with
    | quantize q' =>
      cases hs
      exact site_proxy q s aggressive _ p lo hi htr h1 h2
    | activation kind φ q' =>
      cases hs
      exact site_proxy q s aggressive _ p lo hi htr h1 h2
    | add q' =>
      cases hs
      exact site_proxy q s aggressive _ p lo hi htr h1 h2
    | linear L =>
      cases hs
      have hwf : L.WF s := ⟨hw.shape _ rfl, hw.clip _ rfl, hw.loc L rfl⟩
      have hquant : L.quant s (ins.headD []) p = Node.quantAt (.linear L) ⟨L.paq, L.outShape, L.qShape⟩ s.fbw ins p := by
        unfold LinLayer.quant
        rw [hwf.clip]; rfl
      have h1' : lo ≤ L.quant s (ins.headD []) p := by rw [hquant]; exact h1
      have h2' : L.quant s (ins.headD []) p ≤ hi := by rw [hquant]; exact h2
      change L.proxyOut s _ _ p = L.post _
      rw [← hquant]
      cases hrl : L.reluAct with
      | false => exact C24_linear_eq_proxy L s hwf hrl aggressive _ p hp lo hi htr h1' h2'
      | true => exact C25_relu_eq_proxy L s hwf hrl aggressive _ p hp lo hi htr (fun e _ => hw.fb _ rfl e) h1' h2'
    | passive g => cases hs

/-! ### C26: whole networks -/

theorem predict_eq (net : Net) (ss : List QState) (h : net.All Node.Clipped ss) (x : List (List ℚ)) :
    net.predict ss x = .ok (net.evalEnv (ss.map QState.fbw) x) := by
  obtain ⟨ss', h1, -⟩ := net.call_spec false ss [x] h
  unfold Net.predict
  rw [h1]
  rfl

theorem all_imp {P Q : Node → QState → Prop} (hPQ : ∀ nd s, P nd s → Q nd s) :
    ∀ {net : Net} {ss : List QState}, net.All P ss → net.All Q ss
  | [], [], _ => trivial
  | (_, _) :: _, _ :: _, h => ⟨hPQ _ _ h.1, all_imp hPQ h.2⟩

theorem all_and {P Q : Node → QState → Prop} :
    ∀ {net : Net} {ss : List QState}, net.All P ss → net.All Q ss → net.All (fun n s => P n s ∧ Q n s) ss
  | [], [], _, _ => trivial
  | (_, _) :: _, _ :: _, h, h' => ⟨⟨h.1, h'.1⟩, all_and h.2 h'.2⟩

theorem toProxy_total (S : Sat) : ∀ {net : Net} {ss : List QState}, net.All Node.AllTraced ss →
    ∃ pm, net.toProxy S ss = .ok pm
  | [], [], _ => ⟨[], rfl⟩
  | (nd, ins) :: rest, s :: ss, h => by
    obtain ⟨f, hf, _⟩ := nd.toProxy_ok h.1 S
    obtain ⟨r, hr⟩ := toProxy_total S h.2
    exact ⟨(f, ins) :: r, by unfold Net.toProxy; rw [hf, hr]; rfl⟩

theorem eval_eq (aggressive : Bool) : ∀ {net : Net} {ss : List QState} {pm : PNet}, net.All Node.WF ss →
    net.All Node.AllTraced ss → net.toProxy (proxySat aggressive) ss = .ok pm → ∀ {x : List (List ℚ)}, net.InRange ss x →
    pm.eval x = net.evalEnv (ss.map QState.fbw) x
  | [], [], pm, _, _, hp, x, _ => by cases hp; rfl
  | (nd, ins) :: rest, s :: ss, pm, hw, ht, hp, x, hr => by
    obtain ⟨f, hf, _⟩ := nd.toProxy_ok ht.1 (proxySat aggressive)
    obtain ⟨r, hrr⟩ := toProxy_total (proxySat aggressive) ht.2
    unfold Net.toProxy at hp
    rw [hf, hrr] at hp
    cases hp
    change r.eval (x ++ [f (gather x ins)]) = Net.evalEnv rest (ss.map QState.fbw) (x ++ [nd.out s.fbw (gather x ins)])
    rw [Node.proxy_eq hw.1 ht.1 aggressive hf hr.1]
    exact eval_eq aggressive hw.2 ht.2 hrr hr.2

/-- C26, any input: for every feed-forward graph of HGQ and passive layers whose quantizers have all recorded a range,
`to_proxy_model` succeeds, and on every input on which all quantized values stay in the recorded ranges the proxy
computes exactly the tensors of the model (all intermediate ones and the outputs). -/
theorem C26_in_range (net : Net) (ss : List QState) (aggressive : Bool)
    (hw : net.All Node.WF ss) (ht : net.All Node.AllTraced ss) :
    ∃ pm, net.toProxy (proxySat aggressive) ss = .ok pm ∧
      ∀ x : List (List ℚ), net.InRange ss x → net.predict ss x = .ok (pm.eval x) := by
  obtain ⟨pm, hpm⟩ := toProxy_total (proxySat aggressive) ht
  refine ⟨pm, hpm, fun x hx => ?_⟩
  rw [eval_eq aggressive hw ht hpm hx]
  exact predict_eq net ss (all_imp (fun _ _ h => h.clip) hw) x

/-! ### C26: tracing -/

theorem evalQ_between {st : ℤ} {fbw x : ℚ} {a b : ℤ} (hf : 0 ≤ tfRound fbw) (h1 : (a : ℚ) ≤ x) (h2 : x ≤ b) :
    (a : ℚ) ≤ evalQ st fbw x ∧ evalQ st fbw x ≤ b := by
  have key : ∀ c : ℤ, evalQ st fbw c = c := by
    intro c
    have : (c : ℚ) = ((c * 2 ^ (tfRound fbw).toNat : ℤ) : ℚ) * p2 (-(tfRound fbw)) := by
      push_cast
      have h : ((2 : ℚ) ^ (tfRound fbw).toNat) = p2 (tfRound fbw) := by
        conv_rhs => rw [← Int.toNat_of_nonneg hf]
        unfold p2; rw [zpow_natCast]
      rw [h, mul_assoc, p2_mul_neg, mul_one]
    rw [this, evalQ_of_grid]
  constructor
  · calc (a : ℚ) = evalQ st fbw a := (key a).symm
      _ ≤ _ := evalQ_mono _ _ h1
  · calc evalQ st fbw x ≤ evalQ st fbw b := evalQ_mono _ _ h2
      _ = b := key b

theorem int_grid {fbw : ℚ} (hf : 0 ≤ tfRound fbw) (c : ℤ) : ∃ n : ℤ, (c : ℚ) = n * p2 (-tfRound fbw) := by
  have := evalQ_between (st := 3) (fbw := fbw) (x := c) hf le_rfl le_rfl
  obtain ⟨n, hn⟩ := evalQ_grid 3 fbw c
  exact ⟨n, by rw [← hn]; exact le_antisymm this.1 this.2⟩

theorem adjust_fbw (nd : Node) (s : QState) : (nd.adjust s).fbw = s.fbw := by
  unfold Node.adjust
  split <;> rfl

theorem adjust_inRange {nd : Node} {s : QState} (hw : nd.WF s) {ins : List (List ℚ)} (h : nd.InRange s ins) :
    nd.InRange (nd.adjust s) ins := by
  unfold Node.adjust
  split
  · rename_i φ q
    intro q' hq p hp
    cases hq
    have ha := (hw.act _ _ _ rfl).1 (ins.headD []) p
    have := evalQ_between (st := q.conf.strategy) (fbw := s.fbw (q.elem p)) (a := 0) (b := 1)
      ((hw.act _ _ _ rfl).2 (by simp) _) (by push_cast; exact ha.1) (by push_cast; exact ha.2)
    push_cast at this
    exact ⟨WithTop.coe_le_coe.mpr this.1, WithBot.coe_le_coe.mpr this.2⟩
  · rename_i φ q
    intro q' hq p hp
    have hr := h q' hq p hp
    cases hq
    have ha := (hw.act _ _ _ rfl).1 (ins.headD []) p
    have := evalQ_between (st := q.conf.strategy) (fbw := s.fbw (q.elem p)) (a := 0) (b := 1)
      ((hw.act _ _ _ rfl).2 (by simp) _) (by push_cast; exact ha.1) (by push_cast; exact ha.2)
    push_cast at this
    exact ⟨max_le hr.1 (WithTop.coe_le_coe.mpr this.1), le_min hr.2 (WithBot.coe_le_coe.mpr this.2)⟩
  · rename_i φ q
    intro q' hq p hp
    have hr := h q' hq p hp
    cases hq
    have ha := (hw.act _ _ _ rfl).1 (ins.headD []) p
    have := evalQ_between (st := q.conf.strategy) (fbw := s.fbw (q.elem p)) (a := -1) (b := 1)
      ((hw.act _ _ _ rfl).2 (by simp) _) (by push_cast; exact ha.1) (by push_cast; exact ha.2)
    push_cast at this
    exact ⟨max_le hr.1 (WithTop.coe_le_coe.mpr this.1), le_min hr.2 (WithBot.coe_le_coe.mpr this.2)⟩
  · exact h

theorem adjust_grid {nd : Node} {s : QState} (hw : nd.WF s) (h : GridState s) : GridState (nd.adjust s) := by
  have hmax : ∀ (e : ℕ) (a : ℤ), 0 ≤ tfRound (s.fbw e) → ∀ v : ℚ, max (s.mn e) ((a : ℚ) : WithTop ℚ) = (v : WithTop ℚ) →
      ∃ n : ℤ, v = n * p2 (-tfRound (s.fbw e)) := by
    intro e a hf v hv
    rcases max_choice (s.mn e) ((a : ℚ) : WithTop ℚ) with h' | h' <;> rw [h'] at hv
    · exact (h e).1 v hv
    · rw [← WithTop.coe_injective hv]; exact int_grid hf a
  have hmin : ∀ (e : ℕ) (a : ℤ), 0 ≤ tfRound (s.fbw e) → ∀ v : ℚ, min (s.mx e) ((a : ℚ) : WithBot ℚ) = (v : WithBot ℚ) →
      ∃ n : ℤ, v = n * p2 (-tfRound (s.fbw e)) := by
    intro e a hf v hv
    rcases min_choice (s.mx e) ((a : ℚ) : WithBot ℚ) with h' | h' <;> rw [h'] at hv
    · exact (h e).2 v hv
    · rw [← WithBot.coe_injective hv]; exact int_grid hf a
  unfold Node.adjust
  split
  · rename_i φ q
    intro e
    have hf := (hw.act _ _ _ rfl).2 (by simp) e
    exact ⟨fun v hv => by rw [← WithTop.coe_injective hv]; exact_mod_cast int_grid hf 0,
      fun v hv => by rw [← WithBot.coe_injective hv]; exact_mod_cast int_grid hf 1⟩
  · rename_i φ q
    intro e
    have hf := (hw.act _ _ _ rfl).2 (by simp) e
    exact ⟨fun v hv => hmax e 0 hf v (by exact_mod_cast hv), fun v hv => hmin e 1 hf v (by exact_mod_cast hv)⟩
  · rename_i φ q
    intro e
    have hf := (hw.act _ _ _ rfl).2 (by simp) e
    refine ⟨fun v hv => hmax e (-1) hf v ?_, fun v hv => hmin e 1 hf v (by exact_mod_cast hv)⟩
    rw [← hv]; simp
  · exact h

/-- states after the adjustment of all nodes -/
def adjustAll (net : Net) (ss : List QState) : List QState := List.zipWith (fun ni s => ni.1.adjust s) net ss

theorem adjustAll_spec : ∀ {net : Net} {ss : List QState}, net.All Node.WF ss →
    (adjustAll net ss).map QState.fbw = ss.map QState.fbw ∧ net.All Node.WF (adjustAll net ss) ∧
      (∀ x, net.InRange ss x → net.InRange (adjustAll net ss) x) ∧
      (net.All (fun _ s => GridState s) ss → net.All (fun _ s => GridState s) (adjustAll net ss))
  | [], [], _ => ⟨rfl, trivial, fun _ _ => trivial, fun _ => trivial⟩
  | (nd, ins) :: rest, s :: ss, h => by
    obtain ⟨h1, h2, h3, h4⟩ := adjustAll_spec h.2
    refine ⟨?_, ⟨h.1.congr (adjust_fbw nd s), h2⟩, ?_, ?_⟩
    · change (nd.adjust s).fbw :: (adjustAll rest ss).map QState.fbw = _
      rw [h1, adjust_fbw]; rfl
    · intro x hx
      refine ⟨adjust_inRange h.1 hx.1, ?_⟩
      rw [adjust_fbw]
      exact h3 _ hx.2
    · intro hg
      exact ⟨adjust_grid h.1 hg.1, h4 hg.2⟩

theorem reset_all : ∀ {net : Net} {ss : List QState}, net.All Node.WF ss →
    net.All Node.WF (ss.map QState.reset) ∧ net.All (fun _ s => GridState s) (ss.map QState.reset) ∧
      (ss.map QState.reset).map QState.fbw = ss.map QState.fbw
  | [], [], _ => ⟨trivial, trivial, rfl⟩
  | (_, _) :: _, s :: ss, h => by
    obtain ⟨h1, h2, h3⟩ := reset_all h.2
    exact ⟨⟨h.1.congr rfl, h1⟩, ⟨gridState_reset s, h2⟩, by
      change s.fbw :: ((ss.map QState.reset).map QState.fbw) = _
      rw [h3]; rfl⟩

theorem traced_all : ∀ {net : Net} {ss : List QState}, net.All Node.WF ss →
    net.All (fun _ s => GridState s) ss → net.All Bounded ss → ∀ {x : List (List ℚ)}, net.InRange ss x →
    net.All Node.AllTraced ss
  | [], [], _, _, _, _, _ => trivial
  | (_, _) :: _, _ :: _, hw, hg, hb, _, hr =>
    ⟨Node.traced_of hw.1 hg.1 hb.1 hr.1, traced_all hw.2 hg.2 hb.2 hr.2⟩

theorem trace_spec (net : Net) (ss : List QState) (bsz : ℕ) (data : List (List (List ℚ))) (hw : net.All Node.WF ss)
    (hb : 0 < bsz) :
    ∃ ss', net.trace ss bsz data = .ok (ss', data.map (net.evalEnv (ss.map QState.fbw))) ∧
      ss'.map QState.fbw = ss.map QState.fbw ∧ net.All Node.WF ss' ∧ net.All (fun _ s => GridState s) ss' ∧
      ∀ x ∈ data, net.InRange ss' x := by
  obtain ⟨r1, r2, r3⟩ := reset_all hw
  obtain ⟨s1, h1, h2, -, h4, h5⟩ := net.callBatches_spec true (chunks bsz data) (ss.map QState.reset)
    (all_imp (fun _ _ h => h.clip) r1)
  have hw1 : net.All Node.WF s1 := Net.All.ext (fun _ _ _ h he => h.congr he.fbw) r1 h2
  obtain ⟨a1, a2, a3, a4⟩ := adjustAll_spec hw1
  rw [chunks_flatten bsz hb, r3] at h1
  rw [chunks_flatten bsz hb] at h4
  refine ⟨adjustAll net s1, ?_, ?_, a2, a4 (h5 r2), fun x hx => a3 x (h4 rfl x hx)⟩
  · unfold Net.trace
    rw [h1]
    rfl
  · rw [a1, h2.fbw, r3]

/-- C26 on the calibration data. `trace_minmax` over any non-empty dataset with any batch size succeeds and returns the
model's predictions for the samples in order; if the ranges it recorded are below `2^32`, `to_proxy_model` succeeds and
for every sample of the dataset the proxy computes exactly the tensors of the model. -/
theorem C26_bit_accurate (net : Net) (ss : List QState) (bsz : ℕ) (data : List (List (List ℚ))) (aggressive : Bool)
    (hw : net.All Node.WF ss) (hbsz : 0 < bsz) (hne : data ≠ []) :
    ∃ ss' preds, net.trace ss bsz data = .ok (ss', preds) ∧ ss'.map QState.fbw = ss.map QState.fbw ∧
      (net.All Bounded ss' →
        ∃ pm, net.toProxy (proxySat aggressive) ss' = .ok pm ∧ preds = data.map pm.eval ∧
          ∀ x ∈ data, net.predict ss' x = .ok (pm.eval x)) := by
  obtain ⟨ss', h1, h2, h3, h4, h5⟩ := trace_spec net ss bsz data hw hbsz
  refine ⟨ss', _, h1, h2, fun hbd => ?_⟩
  obtain ⟨x0, hx0⟩ := List.exists_mem_of_ne_nil data hne
  have ht : net.All Node.AllTraced ss' := traced_all h3 h4 hbd (h5 x0 hx0)
  obtain ⟨pm, hpm, hev⟩ := C26_in_range net ss' aggressive h3 ht
  refine ⟨pm, hpm, ?_, fun x hx => hev x (h5 x hx)⟩
  apply List.map_congr_left
  intro x hx
  rw [eval_eq aggressive h3 ht hpm (h5 x hx), h2]

/-! ### a concrete network -/

/-- quantize two inputs, a dense layer with relu, and a residual addition -/
def exNet : Net :=
  [(.quantize exAct, [0]), (.linear (exDense 3 [2] true), [1]), (.passive (fun ins => (ins.headD []).reverse), [2]),
   (.add exAct, [1, 3])]

def exNetStates : List QState := [exState, exState, exState, exState]

theorem exNet_wf : exNet.All Node.WF exNetStates := by
  have c2 : Compat [2] [2] := by decide
  have hcl : ∀ e, exAct.conf.clip (exState.fbw e) = exState.fbw e := by
    intro e
    have := (exDense_wf 0 false).clip e
    exact this
  have hfb : ∀ e, -32 ≤ exState.fbw e := by
    intro e
    show (-32 : ℚ) ≤ if e = 0 then _ else _
    split_ifs <;> norm_num
  refine ⟨⟨?_, ?_, ?_, ?_, ?_⟩, ⟨?_, ?_, ?_, ?_, ?_⟩, ⟨?_, ?_, ?_, ?_, ?_⟩, ⟨?_, ?_, ?_, ?_, ?_⟩, trivial⟩
  all_goals first
    | (intro _ _ _ h; cases h)
    | (intro q hq; cases hq; done)
    | (intro q hq; cases hq; first | exact c2 | exact hcl | exact hfb | exact .inl rfl)

/-- two calibration samples, batch size 1 -/
def exData : List (List (List ℚ)) := [[[1, 1 / 3]], [[-2, 5 / 4]]]

def exTraced : List QState := match exNet.trace exNetStates 1 exData with
  | .ok (ss, _) => ss
  | .error _ => []

-- ranges recorded by the four layers (the third has no quantizer), and bounded, so `C26_bit_accurate` applies
example : (exTraced.map fun s => ((s.mn 0).untopD 99, (s.mn 1).untopD 99, (s.mx 0).unbotD (-99), (s.mx 1).unbotD (-99))) =
    [(-2, 1 / 4, 1, 5 / 4), (-3 / 2, -3 / 4, 1, 19 / 4), (99, 99, -99, -99), (1, 5 / 4, 3, 5 / 4)] := by decide +kernel

example : (match exNet.toProxy .SAT exTraced with | .ok pm => exData.map pm.eval | .error _ => []) =
    [[[1, 1 / 3], [1, 1 / 4], [1, 0], [0, 1], [1, 5 / 4]],
     [[-2, 5 / 4], [-2, 5 / 4], [0, 19 / 4], [19 / 4, 0], [3, 5 / 4]]] := by decide +kernel

example : ∃ ss' preds, exNet.trace exNetStates 1 exData = .ok (ss', preds) :=
  let ⟨ss', preds, h, _⟩ := C26_bit_accurate exNet exNetStates 1 exData true exNet_wf (by decide) (by decide)
  ⟨ss', preds, h⟩

/-! ### excluded cases that really fail -/

/-- A `tanh` layer with -1 fractional bits and floor rounding that has only seen negative values: the clamping of the
recorded range to [-1, 1] leaves minimum -1 above maximum -2, and `to_proxy_model` raises. -/
def exTanh : Net := [(.activation .tanh (List.map fun v => max (-1) (min 1 v)) ⟨⟨3, true, some (-10, 20), fun _ => 1, 7 / 10⟩, [1], [1]⟩, [0])]

def exTanhState : QState := ⟨fun _ => -1, fun _ => ⊤, fun _ => ⊥⟩

theorem C63_tanh_negative_bits :
    (match exTanh.trace [exTanhState] 1 [[[-1 / 2]]] with
      | .ok (ss, preds) => some (preds, (ss.map fun s => ((s.mn 0).untopD 9, (s.mx 0).unbotD 9)),
          match exTanh.toProxy .WRAP ss with | .ok _ => true | .error _ => false)
      | .error _ => none) = some ([[[-1 / 2], [-2]]], [(-1, -2)], false) := by decide +kernel

/-- C63, the part that holds: with non-negative fractional bits, once the layer has recorded some input, the adjusted
ranges are accepted by `get_bits_exact`, which is all `to_proxy_model` needs. Missing: negative fractional bits, where
it can raise (`C63_tanh_negative_bits`). -/
theorem C63_nonneg_bits_partial (kind : ActKind) (φ : List ℚ → List ℚ) (q : QSite) (s : QState)
    (hw : (Node.activation kind φ q).WF s) (ins : List (List ℚ)) (hr : (Node.activation kind φ q).InRange s ins) :
    ∃ bits, ((Node.activation kind φ q).adjust s).getBitsExact (prodL q.qShape) false = .ok bits := by
  have hr' := adjust_inRange hw hr
  have : (List.range (prodL q.qShape)).all (fun e => rangeOk (((Node.activation kind φ q).adjust s).mn e)
      (((Node.activation kind φ q).adjust s).mx e)) = true := by
    rw [List.all_eq_true]
    intro e he
    obtain ⟨p, hp, rfl⟩ := elemOf_surj (hw.shape q rfl) (List.mem_range.mp he)
    have h := hr' q rfl p hp
    change _ ≤ _ ∧ _ ≤ _ at h
    unfold QSite.elem at h
    revert h
    generalize ((Node.activation kind φ q).adjust s).mn (elemOf q.outShape q.qShape p) = a
    generalize ((Node.activation kind φ q).adjust s).mx (elemOf q.outShape q.qShape p) = b
    intro h
    cases a with
    | top => exact absurd h.1 (by simp)
    | coe a =>
      cases b with
      | bot => exact absurd h.2 (by simp)
      | coe b =>
        change decide (0 ≤ b - a) = true
        have := le_trans (WithTop.coe_le_coe.mp h.1) (WithBot.coe_le_coe.mp h.2)
        simpa using this
  unfold QState.getBitsExact
  rw [if_pos this]
  exact ⟨_, rfl⟩

/-- **C63**, exactly when a traced tanh layer can be deployed: no element of its quantizer recorded only values above 1 or only values
below -1. -/
theorem C63_iff_partial (φ : List ℚ → List ℚ) (q : QSite) (s : QState)
    (hrec : ∀ e < prodL q.qShape, ∃ lo hi : ℚ, s.mn e = (lo : WithTop ℚ) ∧ s.mx e = (hi : WithBot ℚ) ∧ lo ≤ hi) :
    (∃ bits, ((Node.activation .tanh φ q).adjust s).getBitsExact (prodL q.qShape) false = .ok bits) ↔
      ∀ e < prodL q.qShape, s.mn e ≤ ((1 : ℚ) : WithTop ℚ) ∧ ((-1 : ℚ) : WithBot ℚ) ≤ s.mx e := by
  have key : ∀ e < prodL q.qShape, rangeOk (((Node.activation .tanh φ q).adjust s).mn e) (((Node.activation .tanh φ q).adjust s).mx e) = true ↔
      s.mn e ≤ ((1 : ℚ) : WithTop ℚ) ∧ ((-1 : ℚ) : WithBot ℚ) ≤ s.mx e := by
    intro e he
    obtain ⟨lo, hi, h1, h2, h3⟩ := hrec e he
    change rangeOk (max (s.mn e) ((-1 : ℚ) : WithTop ℚ)) (min (s.mx e) ((1 : ℚ) : WithBot ℚ)) = true ↔ _
    rw [h1, h2, ← WithTop.coe_max, ← WithBot.coe_min, WithTop.coe_le_coe, WithBot.coe_le_coe]
    change decide (0 ≤ min hi 1 - max lo (-1)) = true ↔ _
    rw [decide_eq_true_eq, sub_nonneg, max_le_iff, le_min_iff, le_min_iff]
    exact ⟨fun h => ⟨h.1.2, h.2.1⟩, fun h => ⟨⟨h3, h.1⟩, h.2, by norm_num⟩⟩
  unfold QState.getBitsExact
  constructor
  · rintro ⟨bits, h⟩ e he
    split_ifs at h with hc
    exact (key e he).mp (List.all_eq_true.mp hc e (List.mem_range.mpr he))
  · intro h
    rw [if_pos (List.all_eq_true.mpr fun e he => (key e (List.mem_range.mp he)).mpr (h e (List.mem_range.mp he)))]
    exact ⟨_, rfl⟩

/-- **C63**, the values of a tanh layer with negative fractional bits: with the floor strategy every negative value becomes `-2^-f`,
at most -2, so a layer that saw only negative values cannot be deployed; with rounding only the value 1 and `f = -1` give a value
outside of [-1, 1]. -/
theorem C63_values (st : ℤ) (f x : ℚ) (hf : tfRound f < 0) (hx : -1 ≤ x) (hx' : x ≤ 1) :
    evalQ st f x = if st = 3 then (if x < 0 then -(2 : ℚ) ^ (-tfRound f) else 0) else if tfRound f = -1 ∧ x = 1 then 2 else 0 := by
  rw [evalQ_eq]
  generalize tfRound f = n at hf ⊢
  have hp : 0 < p2 n := p2_pos n
  have hn : p2 n ≤ 1 / 2 := by
    have : p2 n ≤ p2 (-1) := zpow_le_zpow_right₀ (by norm_num) (by omega)
    exact this.trans (by norm_num [p2])
  have hi : p2 (-n) = (2 : ℚ) ^ (-n) := rfl
  by_cases hs : st = 3
  · rw [if_pos hs, if_pos hs]
    split_ifs with h0
    · have : flr (x * p2 n) = -1 := by
        unfold flr; rw [Int.floor_eq_iff]; push_cast; constructor <;> nlinarith
      rw [this, hi]; push_cast; ring
    · have : flr (x * p2 n) = 0 := by
        unfold flr; rw [Int.floor_eq_iff]; push_cast; constructor <;> nlinarith
      rw [this]; simp
  · rw [if_neg hs, if_neg hs]
    split_ifs with h0
    · obtain ⟨rfl, rfl⟩ := h0
      decide +kernel
    · have : flr (x * p2 n + 1 / 2) = 0 := by
        unfold flr; rw [Int.floor_eq_iff]; push_cast
        refine ⟨by nlinarith, ?_⟩
        by_cases h1 : n = -1
        · have hx1 : x < 1 := lt_of_le_of_ne hx' fun h => h0 ⟨h1, h⟩
          subst h1
          have : p2 (-1) = 1 / 2 := by norm_num [p2]
          rw [this]; linarith
        · have : p2 n ≤ p2 (-2) := zpow_le_zpow_right₀ (by norm_num) (by omega)
          have h2 : p2 (-2) = 1 / 4 := by norm_num [p2]
          nlinarith
      rw [this]; simp

/-- C62, the part that holds: with bitwidths inside the clip range, a second inference call on the same batch (recording
or not) gives the same outputs and leaves the bitwidths unchanged. Missing: bitwidths outside the clip range, where the
first call of a layer with a bias can differ (`C62_first_call_fails`). -/
theorem C62_repeat_call_partial (nd : Node) (s s' : QState) (r r' : Bool) (insB : List (List (List ℚ)))
    (out : List (List ℚ)) (hc : ∀ q, nd.site = some q → ∀ e, q.conf.clip (s.fbw e) = s.fbw e)
    (h : nd.call s r insB = .ok (s', out)) : s'.fbw = s.fbw ∧ ∃ s'', nd.call s' r' insB = .ok (s'', out) := by
  rw [nd.call_eq s r insB hc] at h
  cases h
  have he := nd.after_ext s r insB
  refine ⟨he.fbw, ?_⟩
  rw [nd.call_eq _ r' insB (clipped_ext nd _ _ hc he), he.fbw]
  exact ⟨_, rfl⟩

theorem QConf.clip_idem (c : QConf) (v : ℚ) : c.clip (c.clip v) = c.clip v := by
  unfold QConf.clip
  cases c.bwClip with
  | none => rfl
  | some lh =>
    simp only
    unfold clipByValue
    rcases le_total lh.1 lh.2 with h | h
    · rw [min_eq_left (max_le (min_le_right _ _) h), max_eq_left (le_max_right _ _)]
    · rw [max_eq_right (le_trans (min_le_right _ _) h), max_eq_right (le_trans (min_le_right _ _) h)]

theorem Node.call_fbw {nd : Node} {s s' : QState} {r : Bool} {insB : List (List (List ℚ))} {out : List (List ℚ)} {q : QSite}
    (hs : nd.site = some q) (h : nd.call s r insB = .ok (s', out)) : s'.fbw = fun e => q.conf.clip (s.fbw e) := by
  unfold Node.call at h
  rw [hs] at h
  simp only [QConf.call, bind, Except.bind] at h
  revert h
  generalize q.conf.forwardBatch q.elem _ _ false _ = y
  intro h
  cases y with
  | error e => cases h
  | ok y => cases r <;> cases h <;> rfl

/-- C62, the second and all later calls agree, whatever the stored bitwidths were: the first call (on any batch) has clipped
them. -/
theorem C62_later_calls (nd : Node) (s s1 s2 : QState) (r₀ r r' : Bool) (ins₀ insB : List (List (List ℚ)))
    (out₀ out : List (List ℚ)) (h₀ : nd.call s r₀ ins₀ = .ok (s1, out₀)) (h : nd.call s1 r insB = .ok (s2, out)) :
    s2.fbw = s1.fbw ∧ ∃ s'', nd.call s2 r' insB = .ok (s'', out) := by
  refine C62_repeat_call_partial nd s1 s2 r r' insB out (fun q hq e => ?_) h
  rw [Node.call_fbw hq h₀]
  exact q.conf.clip_idem _

/-- C62, exactly what the first call needs: whatever the stored bitwidths, the first call and a later call on the same batch agree
if the bias of the layer (if it has one) quantizes to the same values before and after the clipping. -/
theorem C62_same_bias_partial (nd : Node) (s s' : QState) (r r' : Bool) (insB : List (List (List ℚ))) (out : List (List ℚ))
    (hb : ∀ L b, nd = .linear L → L.bias = some b → ∀ c,
      L.qbias L.jitLoc s.fbw b c = L.qbias L.jitLoc (fun e => L.paq.clip (s.fbw e)) b c)
    (h : nd.call s r insB = .ok (s', out)) : ∃ s'', nd.call s' r' insB = .ok (s'', out) := by
  cases hs : nd.site with
  | none =>
    unfold Node.call at h ⊢
    rw [hs] at h ⊢
    cases h
    exact ⟨_, rfl⟩
  | some q =>
    let s1 : QState := { s with fbw := fun e => q.conf.clip (s.fbw e) }
    have hpre : nd.pre s.fbw = nd.pre s1.fbw := by
      cases nd with
      | linear L =>
        cases hs
        have : L.jitBias s.fbw = L.jitBias s1.fbw := by
          funext c
          unfold LinLayer.jitBias
          cases hL : L.bias with
          | none => rfl
          | some b => exact hb L b rfl hL c
        funext ins
        have hp : (Node.linear L).preAt s.fbw ins = (Node.linear L).preAt s1.fbw ins := by
          funext p
          show L.pre s.fbw _ p = L.pre s1.fbw _ p
          unfold LinLayer.pre
          rw [this]
        simp only [Node.pre, Node.site, hp]
      | _ => rfl
    have hc1 : ∀ q', nd.site = some q' → ∀ e, q'.conf.clip (s1.fbw e) = s1.fbw e := by
      intro q' hq' e
      rw [hs] at hq'; cases hq'
      exact q.conf.clip_idem _
    have heq : nd.call s r insB = nd.call s1 r insB := by
      unfold Node.call
      rw [hs]
      simp only
      rw [hpre]
      unfold QConf.call
      simp only [s1, q.conf.clip_idem]
    rw [heq] at h
    exact (C62_repeat_call_partial nd s1 s' r r' insB out hc1 h).2

/-- C62 for layers without a bias, whatever the stored bitwidths. -/
theorem C62_no_bias (nd : Node) (hnl : ∀ L, nd = .linear L → L.bias = none) (s s' : QState) (r r' : Bool)
    (insB : List (List (List ℚ))) (out : List (List ℚ)) (h : nd.call s r insB = .ok (s', out)) :
    ∃ s'', nd.call s' r' insB = .ok (s'', out) :=
  C62_same_bias_partial nd s s' r r' insB out (fun L b hL hb => by rw [hnl L hL] at hb; cases hb) h

-- the layer of `C62_first_call_fails`: first and second call differ, the third is as the second; with a bias on the grid of the
-- clipped bitwidths all agree
example : (match (Node.linear exUnclipped).call exUnclippedState false [[[9 / 16]]] with
    | .ok (s1, o1) => (match (Node.linear exUnclipped).call s1 false [[[9 / 16]]] with
      | .ok (s2, o2) => (match (Node.linear exUnclipped).call s2 true [[[9 / 16]]] with
        | .ok (_, o3) => [o1, o2, o3]
        | .error _ => [])
      | .error _ => [])
    | .error _ => []) = [[[1]], [[0]], [[0]]] := by decide +kernel

example : ∀ L b, Node.linear { exUnclipped with bias := some fun _ => 3 } = .linear L → L.bias = some b → ∀ c,
    L.qbias L.jitLoc exUnclippedState.fbw b c = L.qbias L.jitLoc (fun e => L.paq.clip (exUnclippedState.fbw e)) b c := by
  rintro L b ⟨⟩ ⟨⟩ c
  show evalQ 3 5 3 = evalQ 3 (clipByValue 5 (-10) 0) 3
  decide +kernel

-- bitwidth 30, clipped to 20 by the first call
example : (match (Node.quantize exAct).call { exState with fbw := fun _ => 30 } true [[[1 / 3, 2]]] with
    | .ok (s', out) => some (s'.fbw 0, out)
    | .error _ => none) = some (20, [[349525 / 1048576, 2]]) := by decide +kernel

end HGQ
