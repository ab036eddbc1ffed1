import Verif.Props.Saturate

/-!
C106: proxy and model agree on an input exactly if nothing overflows.
-/

namespace HGQ

open Spec

/-- whether the deployed type has no sign: behind a fused relu. proxy/convert.py lines 299-331. -/
def Node.signless : Node → Bool
  | .linear L => L.reluAct
  | _ => false

/-- the fixed-point type a layer is deployed with at position `p`: `get_bits_exact`, without sign behind a relu.
proxy/convert.py lines 267-271, 299-331. -/
def Node.outType (nd : Node) (q : QSite) (s : QState) (p : ℕ) : KIF :=
  bitsExact ((s.mn (q.elem p)).untopD 0) ((s.mx (q.elem p)).unbotD 0) (s.fbw (q.elem p)) nd.signless

/-- no overflow: every output of the HGQ layer is a value of the deployed type -/
def Node.NoOverflow (nd : Node) (s : QState) (ins : List (List ℚ)) : Prop :=
  ∀ q, nd.site = some q → ∀ p < prodL q.outShape,
    IsKif (nd.outType q s p).k (nd.outType q s p).i (nd.outType q s p).f ((nd.out s.fbw ins).getD p 0)

/-- no overflow in any layer of the model on this input; the tensors are those of the HGQ model -/
def Net.NoOverflow : Net → List QState → List (List ℚ) → Prop
  | [], _, _ => True
  | (nd, ins) :: rest, s :: ss, env =>
    nd.NoOverflow s (gather env ins) ∧ Net.NoOverflow rest ss (env ++ [nd.out s.fbw (gather env ins)])
  | _ :: _, [], _ => False

/-- a value of a type with at least one bit does not exceed the largest one -/
theorem isKif_le_max {k i f : ℤ} {v : ℚ} (h : IsKif k i f v) (hif : -f ≤ i) : v ≤ (2 : ℚ) ^ i - (2 : ℚ) ^ (-f) := by
  obtain ⟨⟨n, rfl⟩, -, h2⟩ := h
  obtain ⟨m, hm, -⟩ := p2_int_of_nonneg (a := i + f) (by omega)
  have hp := p2_pos (-f)
  have hmI : (m : ℚ) * p2 (-f) = p2 i := by rw [← hm, ← p2_add]; congr 1; ring
  change (n : ℚ) * p2 (-f) < p2 i at h2
  change (n : ℚ) * p2 (-f) ≤ p2 i - p2 (-f)
  rw [← hmI] at h2 ⊢
  have h3 : (n : ℚ) < m := lt_of_mul_lt_mul_right h2 hp.le
  have h4 : n + 1 ≤ m := by exact_mod_cast h3
  have h5 : ((n + 1 : ℤ) : ℚ) * p2 (-f) ≤ m * p2 (-f) := mul_le_mul_of_nonneg_right (by exact_mod_cast h4) hp.le
  push_cast at h5
  linarith

/-- clamping to the ends of a type changes nothing exactly on the values of the type -/
theorem sat_fixed_iff {r : KIF} {g v : ℚ} (hk : r.k = 0 ∨ r.k = 1) (hw : 0 ≤ r.k + r.i + r.f) (h0 : r.k + r.i + r.f = 0 → r = ⟨0, 0, 0⟩)
    (hg : r ≠ ⟨0, 0, 0⟩ → ∃ n : ℤ, v = n * p2 (-r.f))
    (he : g = max (min v ((2 : ℚ) ^ r.i - (2 : ℚ) ^ (-r.f))) (-(r.k * (2 : ℚ) ^ r.i))) : g = v ↔ IsKif r.k r.i r.f v := by
  rw [he]
  by_cases hz : r.k + r.i + r.f = 0
  · rw [h0 hz]
    constructor
    · intro h
      simp at h
      rw [← h]
      exact ⟨⟨0, by simp⟩, by simp, by simp⟩
    · intro h
      rw [isKif_width_zero (.inl rfl) (by simp) h]
      simp
  · have hpf := zpow2_pos (-r.f)
    obtain ⟨n, hn⟩ := hg (by rintro rfl; simp at hz)
    constructor
    · intro h
      refine ⟨⟨n, hn⟩, ?_, ?_⟩
      · rw [← h]; exact le_max_right _ _
      · have h1 : v ≤ max ((2 : ℚ) ^ r.i - (2 : ℚ) ^ (-r.f)) (-(r.k * (2 : ℚ) ^ r.i)) := by
          conv_lhs => rw [← h]
          exact max_le_max_right _ (min_le_right _ _)
        have hk0 : (0 : ℚ) ≤ r.k := by rcases hk with h | h <;> rw [h] <;> norm_num
        have hi := zpow2_pos r.i
        refine lt_of_le_of_lt h1 (max_lt (by linarith) ?_)
        have := mul_nonneg hk0 hi.le
        linarith
    · intro hK
      rw [min_eq_left (isKif_le_max hK (by omega)), max_eq_left hK.2.1]

/-- two values of a type that differ by a multiple of its size are equal -/
theorem isKif_unique {r : KIF} {g v : ℚ} (hk : r.k = 0 ∨ r.k = 1) (hg : IsKif r.k r.i r.f g) (hv : IsKif r.k r.i r.f v) (n : ℤ)
    (h : g = v - n * (2 : ℚ) ^ (r.k + r.i)) : g = v := by
  have hi := zpow2_pos r.i
  have e : (2 : ℚ) ^ (r.k + r.i) = (1 + r.k) * (2 : ℚ) ^ r.i := by
    change p2 (r.k + r.i) = (1 + r.k) * p2 r.i
    rcases hk with h | h <;> rw [h]
    · simp
    · rw [add_comm, p2_succ]; norm_num
  have hpos : 0 < (2 : ℚ) ^ (r.k + r.i) := zpow2_pos _
  obtain ⟨-, a1, a2⟩ := hg
  obtain ⟨-, b1, b2⟩ := hv
  have hn : n = 0 := by
    have h1 : (n : ℚ) * (2 : ℚ) ^ (r.k + r.i) < 1 * (2 : ℚ) ^ (r.k + r.i) := by
      rw [e] at h ⊢; linarith
    have h2 : (-1) * (2 : ℚ) ^ (r.k + r.i) < (n : ℚ) * (2 : ℚ) ^ (r.k + r.i) := by
      rw [e] at h ⊢; linarith
    have h1 : n < 1 := by exact_mod_cast lt_of_mul_lt_mul_right h1 hpos.le
    have h2 : -1 < n := by exact_mod_cast lt_of_mul_lt_mul_right h2 hpos.le
    omega
  rw [h, hn]; simp

/-- the deployed quantizer returns values of its type, in every overflow mode -/
theorem proxyQ_isKif {r : KIF} (hk : r.k = 0 ∨ r.k = 1) (hw : 0 ≤ r.k + r.i + r.f) (R : Rnd) (S : Sat) (x : ℚ) :
    IsKif r.k r.i r.f ((proxyQ r).apply R S x) := by
  obtain ⟨k, i, f⟩ := r
  simp only at hk hw ⊢
  unfold proxyQ
  rw [init_apply]
  obtain ⟨w, hw'⟩ := Int.eq_ofNat_of_zero_le hw
  have key : ∀ s : Bool, s.toInt = k → IsKif k i f (gfixedQuantizer x k (k + i + f) (k + i) R S) := by
    rintro s rfl
    have h := C01_output_in_type x s w (s.toInt + i) R S
    rw [spec_kif_iff_apfixed] at h
    have e1 : s.toInt + i - s.toInt = i := by ring
    have e2 : (w : ℤ) - (s.toInt + i) = f := by omega
    rw [e1, e2] at h
    rw [hw']
    exact h
  rcases hk with h | h
  · exact key false (by rw [h]; rfl)
  · exact key true (by rw [h]; rfl)

/-! ### one layer -/

theorem Node.outType_wf {nd : Node} {q : QSite} {s : QState} (hw : nd.WF s) (hs : nd.site = some q) (p : ℕ) :
    ((nd.outType q s p).k = 0 ∨ (nd.outType q s p).k = 1) ∧ 0 ≤ (nd.outType q s p).k + (nd.outType q s p).i + (nd.outType q s p).f ∧
    ((nd.outType q s p).f = tfRound (s.fbw (q.elem p)) ∨ nd.outType q s p = ⟨0, 0, 0⟩) ∧
    ((nd.outType q s p).k + (nd.outType q s p).i + (nd.outType q s p).f = 0 → nd.outType q s p = ⟨0, 0, 0⟩) := by
  obtain ⟨h1, h2, h3⟩ := bitsExact_wf ((s.mn (q.elem p)).untopD 0) ((s.mx (q.elem p)).unbotD 0) (s.fbw (q.elem p)) nd.signless
    (tfRound_ge (by exact_mod_cast hw.fb q hs (q.elem p)))
  exact ⟨h1, h2, h3, fun h => bitsExact_mask h⟩

theorem Node.proxyAt_isKif {nd : Node} {q : QSite} {s : QState} (hw : nd.WF s) (hs : nd.site = some q) (S : Sat) (ins : List (List ℚ)) (p : ℕ) :
    IsKif (nd.outType q s p).k (nd.outType q s p).i (nd.outType q s p).f (nd.proxyAt s S ins p) := by
  obtain ⟨h1, h2, -, -⟩ := Node.outType_wf hw hs p
  have key := fun R x => proxyQ_isKif h1 h2 R S x
  cases nd with
  | quantize q' => cases hs; exact key _ _
  | activation _ _ q' => cases hs; exact key _ _
  | add q' => cases hs; exact key _ _
  | linear L =>
    cases hs
    change IsKif _ _ _ (L.proxyOut s S (ins.headD []) p)
    unfold LinLayer.proxyOut
    split_ifs with h
    · have e : L.bitsAt s true p = (Node.linear L).outType ⟨L.paq, L.outShape, L.qShape⟩ s p := by
        unfold Node.outType Node.signless; simp only [h]; rfl
      rw [e]; exact key _ _
    · have e : L.bitsAt s false p = (Node.linear L).outType ⟨L.paq, L.outShape, L.qShape⟩ s p := by
        unfold Node.outType Node.signless
        simp only [Bool.not_eq_true] at h
        simp only [h]; rfl
      rw [e]; exact key _ _
  | passive g => cases hs

/-- no relu in this layer -/
def Node.NoRelu : Node → Prop
  | .linear L => L.reluAct = false
  | _ => True

theorem Node.proxyAt_eq {nd : Node} {q : QSite} {s : QState} (hw : nd.WF s) (ht : nd.AllTraced s) (hs : nd.site = some q) (aggressive : Bool)
    (hr : aggressive = true → nd.NoRelu) (ins : List (List ℚ)) (p : ℕ) (hp : p < prodL q.outShape)
    (h : IsKif (nd.outType q s p).k (nd.outType q s p).i (nd.outType q s p).f (nd.post (nd.quantAt q s.fbw ins p))) :
    nd.proxyAt s (proxySat aggressive) ins p = nd.post (nd.quantAt q s.fbw ins p) := by
  obtain ⟨h1, h2, h3, h4⟩ := Node.outType_wf hw hs p
  have hk := Node.proxyAt_isKif hw hs (proxySat aggressive) ins p
  obtain ⟨lo, hi, htr⟩ := ht q hs (q.elem p) (elemOf_lt (hw.shape q hs) hp)
  by_cases hz : nd.outType q s p = ⟨0, 0, 0⟩
  · rw [hz] at hk h
    rw [isKif_width_zero (.inl rfl) (by simp) hk, isKif_width_zero (.inl rfl) (by simp) h]
  have hgrid : ∃ n : ℤ, nd.quantAt q s.fbw ins p = n * p2 (-(nd.outType q s p).f) := by
    rw [h3.resolve_right hz]; exact evalQ_grid _ _ _
  cases aggressive with
  | true =>
    by_cases hl : ∀ L, nd ≠ .linear L
    · have e : nd.outType q s p = q.bitsAt s p := by
        cases nd with
        | linear L => exact absurd rfl (hl L)
        | _ => rfl
      have e2 : nd.post = id := by
        cases nd with
        | linear L => exact absurd rfl (hl L)
        | _ => rfl
      obtain ⟨-, n, hn⟩ := C104_wraps nd q hs hl s (hw.fb q hs) ins p (e ▸ hz)
      rw [e2] at h ⊢
      exact isKif_unique h1 hk h n (by rw [hn, e]; rfl)
    · push Not at hl
      obtain ⟨L, rfl⟩ := hl
      cases hs
      have hrl : L.reluAct = false := hr rfl
      have e : (Node.linear L).outType ⟨L.paq, L.outShape, L.qShape⟩ s p = L.bitsAt s false p := by
        unfold Node.outType Node.signless; simp only [hrl]; rfl
      have hwf : L.WF s := ⟨hw.shape _ rfl, hw.clip _ rfl, hw.loc L rfl⟩
      have hquant : L.quant s (ins.headD []) p = Node.quantAt (.linear L) ⟨L.paq, L.outShape, L.qShape⟩ s.fbw ins p := by
        unfold LinLayer.quant
        rw [hwf.clip]; rfl
      obtain ⟨-, n, hn⟩ := C104_linear_wraps L s hwf hrl (ins.headD []) p hp lo hi htr (e ▸ hz)
      have e2 : ∀ v, (Node.linear L).post v = v := by
        intro v; change L.post v = v; unfold LinLayer.post; simp [hrl]
      rw [e2] at h ⊢
      refine isKif_unique h1 hk h n ?_
      rw [e, ← hquant]; exact hn
  | false =>
    have sat := fun g hg he => (sat_fixed_iff (r := nd.outType q s p) (g := g) (v := nd.post (nd.quantAt q s.fbw ins p)) h1 h2 h4 hg he).mpr h
    refine sat _ (fun _ => h.1) ?_
    by_cases hl : ∀ L, nd ≠ .linear L
    · have e : nd.outType q s p = q.bitsAt s p := by
        cases nd with
        | linear L => exact absurd rfl (hl L)
        | _ => rfl
      have e2 : nd.post = id := by
        cases nd with
        | linear L => exact absurd rfl (hl L)
        | _ => rfl
      rw [e, e2]
      exact C104_saturates nd q hs hl s (hw.fb q hs) ins p
    · push Not at hl
      obtain ⟨L, rfl⟩ := hl
      cases hs
      have hwf : L.WF s := ⟨hw.shape _ rfl, hw.clip _ rfl, hw.loc L rfl⟩
      have hquant : L.quant s (ins.headD []) p = Node.quantAt (.linear L) ⟨L.paq, L.outShape, L.qShape⟩ s.fbw ins p := by
        unfold LinLayer.quant
        rw [hwf.clip]; rfl
      rw [← hquant]
      cases hrl : L.reluAct with
      | false =>
        have e : (Node.linear L).outType ⟨L.paq, L.outShape, L.qShape⟩ s p = L.bitsAt s false p := by
          unfold Node.outType Node.signless; simp only [hrl]; rfl
        have e2 : ∀ v, (Node.linear L).post v = v := by
          intro v; change L.post v = v; unfold LinLayer.post; simp [hrl]
        rw [e, e2]
        exact C104_linear_saturates L s hwf hrl _ p hp lo hi htr
      | true =>
        have e : (Node.linear L).outType ⟨L.paq, L.outShape, L.qShape⟩ s p = L.bitsAt s true p := by
          unfold Node.outType Node.signless; simp only [hrl]; rfl
        have e2 : ∀ v, (Node.linear L).post v = max v 0 := by
          intro v; change L.post v = _; unfold LinLayer.post; simp [hrl, relu]
        rw [e, e2]
        exact C104_relu_saturates L s hwf hrl _ p hp lo hi htr (fun e _ => hw.fb _ rfl e)

/-- a layer and its proxy agree on a whole tensor only if no output overflows -/
theorem Node.noOverflow_of_eq {nd : Node} {s : QState} (hw : nd.WF s) (ht : nd.AllTraced s) {S : Sat}
    {f : List (List ℚ) → List ℚ} (hf : nd.toProxy s S = .ok f) {ins : List (List ℚ)}
    (h : f ins = nd.out s.fbw ins) : nd.NoOverflow s ins := by
  intro q hq p hp
  obtain ⟨f', hf', h'⟩ := nd.toProxy_ok ht S
  rw [hf] at hf'
  cases hf'
  rw [← h, h', hq]
  simp only
  rw [List.getD_eq_getElem?_getD, List.getElem?_map, List.getElem?_range hp]
  exact Node.proxyAt_isKif hw hq S ins p

theorem Node.eq_of_noOverflow {nd : Node} {s : QState} (hw : nd.WF s) (ht : nd.AllTraced s) (aggressive : Bool)
    (hr : aggressive = true → nd.NoRelu) {f : List (List ℚ) → List ℚ} (hf : nd.toProxy s (proxySat aggressive) = .ok f) {ins : List (List ℚ)}
    (h : nd.NoOverflow s ins) : f ins = nd.out s.fbw ins := by
  obtain ⟨f', hf', h'⟩ := nd.toProxy_ok ht (proxySat aggressive)
  rw [hf] at hf'
  cases hf'
  rw [h']
  unfold Node.out
  cases hs : nd.site with
  | none => rfl
  | some q =>
    simp only
    apply List.map_congr_left
    intro p hp
    have hp := List.mem_range.mp hp
    have hk := h q hs p hp
    unfold Node.out at hk
    rw [hs] at hk
    simp only at hk
    rw [List.getD_eq_getElem?_getD, List.getElem?_map, List.getElem?_range hp] at hk
    exact Node.proxyAt_eq hw ht hs aggressive hr ins p hp hk

/-! ### whole models -/

theorem eval_prefix : ∀ (pm : PNet) (x : List (List ℚ)), x <+: pm.eval x
  | [], x => List.prefix_refl x
  | (f, ins) :: r, x => (List.prefix_append x [f (gather x ins)]).trans (eval_prefix r _)

theorem evalEnv_prefix : ∀ (net : Net) (fb : List (ℕ → ℚ)) (x : List (List ℚ)), x <+: net.evalEnv fb x
  | [], _, x => List.prefix_refl x
  | (nd, ins) :: r, b :: fb, x => (List.prefix_append x [nd.out b (gather x ins)]).trans (evalEnv_prefix r fb _)
  | _ :: _, [], x => List.prefix_refl x

theorem prefix_last {α : Type} {x l : List α} {a b : α} (h1 : x ++ [a] <+: l) (h2 : x ++ [b] <+: l) : a = b := by
  have := List.prefix_of_prefix_length_le h1 h2 (by simp)
  have := this.eq_of_length (by simp)
  simpa using this

theorem noOverflow_of_eval_eq {S : Sat} : ∀ {net : Net} {ss : List QState} {pm : PNet}, net.All Node.WF ss →
    net.All Node.AllTraced ss → net.toProxy S ss = .ok pm → ∀ {x : List (List ℚ)}, pm.eval x = net.evalEnv (ss.map QState.fbw) x →
    net.NoOverflow ss x
  | [], [], pm, _, _, _, x, _ => trivial
  | (nd, ins) :: rest, s :: ss, pm, hw, ht, hp, x, h => by
    obtain ⟨f, hf, _⟩ := nd.toProxy_ok ht.1 S
    obtain ⟨r, hrr⟩ := toProxy_total S ht.2
    unfold Net.toProxy at hp
    rw [hf, hrr] at hp
    cases hp
    change r.eval (x ++ [f (gather x ins)]) = Net.evalEnv rest (ss.map QState.fbw) (x ++ [nd.out s.fbw (gather x ins)]) at h
    have e : f (gather x ins) = nd.out s.fbw (gather x ins) := by
      have h1 := eval_prefix r (x ++ [f (gather x ins)])
      rw [h] at h1
      exact prefix_last h1 (evalEnv_prefix rest _ _)
    rw [e] at h
    exact ⟨Node.noOverflow_of_eq hw.1 ht.1 hf e, noOverflow_of_eval_eq hw.2 ht.2 hrr h⟩

theorem eval_eq_of_noOverflow (aggressive : Bool) : ∀ {net : Net} {ss : List QState} {pm : PNet}, net.All Node.WF ss →
    net.All Node.AllTraced ss → (aggressive = true → ∀ ni ∈ net, ni.1.NoRelu) → net.toProxy (proxySat aggressive) ss = .ok pm →
    ∀ {x : List (List ℚ)}, net.NoOverflow ss x → pm.eval x = net.evalEnv (ss.map QState.fbw) x
  | [], [], pm, _, _, _, hp, x, _ => by cases hp; rfl
  | (nd, ins) :: rest, s :: ss, pm, hw, ht, hn, hp, x, hr => by
    obtain ⟨f, hf, _⟩ := nd.toProxy_ok ht.1 (proxySat aggressive)
    obtain ⟨r, hrr⟩ := toProxy_total (proxySat aggressive) ht.2
    unfold Net.toProxy at hp
    rw [hf, hrr] at hp
    cases hp
    change r.eval (x ++ [f (gather x ins)]) = Net.evalEnv rest (ss.map QState.fbw) (x ++ [nd.out s.fbw (gather x ins)])
    rw [Node.eq_of_noOverflow hw.1 ht.1 aggressive (fun h => hn h _ List.mem_cons_self) hf hr.1]
    exact eval_eq_of_noOverflow aggressive hw.2 ht.2 (fun h ni hni => hn h ni (List.mem_cons_of_mem _ hni)) hrr hr.2

/-! ### C106 -/

/-- C106, default (saturating) mode. For every model whose quantizers have recorded a range, and every input, calibrated or not: the proxy
computes the tensors of the model (intermediate ones and outputs) exactly if every layer output of the model fits its deployed type. -/
theorem C106_detects_overflow (net : Net) (ss : List QState) (hw : net.All Node.WF ss) (ht : net.All Node.AllTraced ss) :
    ∃ pm, net.toProxy (proxySat false) ss = .ok pm ∧
      ∀ x : List (List ℚ), net.predict ss x = .ok (pm.eval x) ↔ net.NoOverflow ss x := by
  obtain ⟨pm, hpm⟩ := toProxy_total (proxySat false) ht
  refine ⟨pm, hpm, fun x => ?_⟩
  rw [predict_eq net ss (all_imp (fun _ _ h => h.clip) hw) x]
  constructor
  · intro h
    exact noOverflow_of_eval_eq hw ht hpm (by injection h with h; exact h.symm)
  · intro h
    rw [eval_eq_of_noOverflow false hw ht (by simp) hpm h]

/-- C106, `aggressive=True`: the same for models without relu fused into a dense or convolution layer; with such layers, equal tensors still
mean that nothing overflowed. -/
theorem C106_detects_overflow_aggressive (net : Net) (ss : List QState) (hw : net.All Node.WF ss) (ht : net.All Node.AllTraced ss) :
    ∃ pm, net.toProxy (proxySat true) ss = .ok pm ∧
      (∀ x : List (List ℚ), net.predict ss x = .ok (pm.eval x) → net.NoOverflow ss x) ∧
      ((∀ ni ∈ net, ni.1.NoRelu) → ∀ x : List (List ℚ), net.NoOverflow ss x → net.predict ss x = .ok (pm.eval x)) := by
  obtain ⟨pm, hpm⟩ := toProxy_total (proxySat true) ht
  refine ⟨pm, hpm, fun x => ?_, fun hn x => ?_⟩
  · rw [predict_eq net ss (all_imp (fun _ _ h => h.clip) hw) x]
    intro h
    exact noOverflow_of_eval_eq hw ht hpm (by injection h with h; exact h.symm)
  · rw [predict_eq net ss (all_imp (fun _ _ h => h.clip) hw) x]
    intro h
    rw [eval_eq_of_noOverflow true hw ht (fun _ => hn) hpm h]

/-! ### concrete cases -/

theorem exNet_traced : exNet.All Node.AllTraced exNetStates := by
  have h : ∀ e < 2, ∃ lo hi, Traced exState e lo hi := by
    intro e he
    obtain rfl | rfl : e = 0 ∨ e = 1 := by omega
    · exact ⟨_, _, exState_traced0⟩
    · exact ⟨_, _, exState_traced1⟩
  refine ⟨?_, ?_, ?_, ?_, trivial⟩ <;> intro q hq <;> cases hq <;> exact h

/-- the tensors of the model and of its proxy for the example states -/
def exTensors (aggressive : Bool) (net : Net) (ss : List QState) (x : List (List ℚ)) : Option (List (List ℚ) × List (List ℚ)) :=
  match net.predict ss x, net.toProxy (proxySat aggressive) ss with
  | .ok a, .ok pm => some (a, pm.eval x)
  | _, _ => none

-- the dense layer computes 19/4 at its second output, whose type ends at 7/4; the next layers then differ too
example : exTensors false exNet exNetStates [[-2, 5 / 4]] =
    some ([[-2, 5 / 4], [-2, 5 / 4], [0, 19 / 4], [19 / 4, 0], [3, 5 / 4]],
      [[-2, 5 / 4], [-2, 5 / 4], [0, 7 / 4], [7 / 4, 0], [0, 5 / 4]]) := by decide +kernel

example : ¬ exNet.NoOverflow exNetStates [[-2, 5 / 4]] := by
  obtain ⟨pm, hpm, h⟩ := C106_detects_overflow exNet exNetStates exNet_wf exNet_traced
  rw [← h]
  intro hc
  have : exTensors false exNet exNetStates [[-2, 5 / 4]] = some (pm.eval [[-2, 5 / 4]], pm.eval [[-2, 5 / 4]]) := by
    unfold exTensors; rw [hc, hpm]
  rw [show exTensors false exNet exNetStates [[-2, 5 / 4]] = some ([[-2, 5 / 4], [-2, 5 / 4], [0, 19 / 4], [19 / 4, 0], [3, 5 / 4]],
      [[-2, 5 / 4], [-2, 5 / 4], [0, 7 / 4], [7 / 4, 0], [0, 5 / 4]]) by decide +kernel] at this
  injection this with this
  have h1 := (congrArg Prod.fst this).trans (congrArg Prod.snd this).symm
  exact absurd h1 (by decide +kernel)

/-- calibrated to [-4, 2] with one fractional bit: the type reaches up to 7/2 -/
def exNarrow : QState where
  fbw := fun _ => 1
  mn := fun _ => ((-4 : ℚ) : WithTop ℚ)
  mx := fun _ => ((2 : ℚ) : WithBot ℚ)

-- 3 is outside the recorded range but inside the type, 4 is outside both
example : (Node.quantize exAct).outType exAct exNarrow 0 = ⟨1, 2, 1⟩ ∧
    exTensors false [(.quantize exAct, [0])] [exNarrow] [[3, 3]] = some ([[3, 3], [3, 3]], [[3, 3], [3, 3]]) ∧
    exTensors false [(.quantize exAct, [0])] [exNarrow] [[4, 3]] = some ([[4, 3], [4, 3]], [[4, 3], [7 / 2, 3]]) := by decide +kernel

/-- Comparing only the final outputs is not enough: an overflow in a hidden layer can be hidden by a later layer. The input quantizer turns -6
into the smallest value of its type, -4; behind the ReLU layer both are 0. -/
theorem C106_hidden_overflow :
    exTensors false [(.quantize exAct, [0]), (.activation .other (List.map fun v => max v 0) exAct, [1])] [exState, exState] [[-6, 0]] =
      some ([[-6, 0], [-6, 0], [0, 0]], [[-6, 0], [-4, 0], [0, 0]]) := by decide +kernel

/-- With `aggressive=True` and a fused relu the proxy can also differ when no output overflows: the dense layer computes -19/4, so the model's output is
0, which fits every type, but the quantizer in front of the proxy's ReLU wraps -19/4 to 13/4, which is then rounded to 7/2. -/
theorem C106_aggressive_relu : Net.NoOverflow [(.linear (exDense 0 [2] true), [0])] [exState] [[-3, -4]] ∧
    exTensors true [(.linear (exDense 0 [2] true), [0])] [exState] [[-3, -4]] = some ([[-3, -4], [0, 5 / 4]], [[-3, -4], [7 / 2, 5 / 4]]) := by
  refine ⟨⟨?_, trivial⟩, by decide +kernel⟩
  have ho : (Node.linear (exDense 0 [2] true)).out exState.fbw (gather [[-3, -4]] [0]) = [0, 5 / 4] := by decide +kernel
  intro q hq p hp
  cases hq
  rw [ho]
  obtain rfl | rfl : p = 0 ∨ p = 1 := by
    change p < 2 at hp
    omega
  · rw [show (Node.linear (exDense 0 [2] true)).outType ⟨(exDense 0 [2] true).paq, (exDense 0 [2] true).outShape, (exDense 0 [2] true).qShape⟩ exState 0 = ⟨0, 2, 1⟩ by decide +kernel]
    exact ⟨⟨0, by simp⟩, by norm_num, by norm_num⟩
  · rw [show (Node.linear (exDense 0 [2] true)).outType ⟨(exDense 0 [2] true).paq, (exDense 0 [2] true).outShape, (exDense 0 [2] true).qShape⟩ exState 1 = ⟨0, 1, 2⟩ by decide +kernel]
    exact ⟨⟨5, by norm_num⟩, by norm_num, by norm_num⟩

end HGQ
