import Verif.Props.ProxyGraph
import Verif.Props.Net

/-!
C71: a nested model of HGQ layers and its proxy agree on calibrated inputs. C71 with the layers of `Model/Net.lean`.
-/

namespace HGQ.Convert

open Spec

/-- a layer with everything that determines what it computes -/
inductive LDesc
  /-- an HGQ or passive layer, with the state of its quantizer -/
  | node (nd : Node) (s : QState)
  /-- `Signature`, with the declared types (`keep_negative`, `bits`, `int_bits`) of the positions of its input,
  passive_layers.py lines 33-55 -/
  | sig (types : List (Bool × ℕ × ℤ))
  /-- another Keras layer computing `g` -/
  | plain (g : List (List ℚ) → List ℚ)

/-- an `HQuantize` layer -/
def KindQ (nd : Node) (xs : List (List ℚ)) : Prop := ∃ q, nd = .quantize q ∧ xs.length = 1

/-- an `HActivation` (with linear activation only if `linear`), an `HAdd`, or a layer with a kernel and relu iff `relu` -/
def KindH (act linear relu : Bool) (nd : Node) (xs : List (List ℚ)) : Prop :=
  (∃ kind φ q, nd = .activation kind φ q ∧ act = true ∧ (linear = true → φ = id) ∧ xs.length = 1) ∨
  (∃ q, nd = .add q ∧ act = false ∧ relu = false) ∨
  (∃ L, nd = .linear L ∧ act = false ∧ relu = L.reluAct ∧ xs.length = 1)

/-- a passive layer, the identity if it is a dropout -/
def KindP (dropout : Bool) (nd : Node) (xs : List (List ℚ)) : Prop :=
  ∃ g, nd = .passive g ∧ (dropout = true → xs = [g xs])

open Classical in
/-- What the layers of a model and of its proxy compute in inference. HGQ layers are specified where all their quantizers
have recorded a range and the quantized values stay inside; a `Signature` where its input fits the declared types. -/
noncomputable def hgqSem (aggressive : Bool) : LayerSem LDesc (List ℚ) where
  fwd op xs := match op with
    | .signature (.sig ts) => match xs with
      | [x] => if x.length = ts.length ∧ ∀ p (h : p < ts.length), IsApFixed ts[p].1 ts[p].2.1 ts[p].2.2 (x.getD p 0)
          then some x else none
      | _ => none
    | .hQuantize (.node nd s) =>
      if nd.WF s ∧ nd.AllTraced s ∧ nd.InRange s xs ∧ KindQ nd xs then some (nd.out s.fbw xs) else none
    | .hLayer _ act linear relu _ (.node nd s) =>
      if nd.WF s ∧ nd.AllTraced s ∧ nd.InRange s xs ∧ KindH act linear relu nd xs then some (nd.out s.fbw xs) else none
    | .pLayer dropout _ (.node nd s) => if KindP dropout nd xs then some (nd.out s.fbw xs) else none
    | _ => none
  keras d xs := match d with
    | .node (.linear L) s => some ((List.range (prodL L.outShape)).map (L.klayer s (xs.headD [])))
    | .node (.passive g) _ => some (g xs)
    | .node nd s => some (nd.pre s.fbw xs)
    | .sig _ => none
    | .plain g => some (g xs)
  quant second d z := match d with
    | .node (.linear L) s =>
      let R := proxyRnd L.paq.strategy L.canBiasCover
      let S := proxySat aggressive
      some ((List.range (prodL L.outShape)).map fun p =>
        if second then (proxyQ (L.bitsAt s true p)).apply R S (z.getD p 0)
        else if L.reluAct then
          let t := L.reluKif s
          (KBI.init t.k (t.k + t.i + t.f + if R = .TRN then 0 else if R = .RND then 1 else 2) (t.k + t.i)).apply .TRN S (z.getD p 0)
        else (proxyQ (L.bitsAt s false p)).apply R S (z.getD p 0))
    | .node nd s => nd.site.map fun q => (List.range (prodL q.outShape)).map fun p =>
        (proxyQ (q.bitsAt s p)).apply (proxyRnd q.conf.strategy false) (proxySat aggressive) (z.getD p 0)
    | .sig ts => some ((List.range ts.length).map fun p =>
        (KBI.init (ts.getD p default).1.toInt (ts.getD p default).2.1 (ts.getD p default).2.2).apply .TRN
          (proxySat aggressive) (z.getD p 0))
    | .plain _ => none
  relu x := some (x.map relu)

theorem getD_range {n p : ℕ} (f : ℕ → ℚ) (h : p < n) : ((List.range n).map f).getD p 0 = f p := by
  simp [List.getD, h]

theorem proxySat_ne (a : Bool) : proxySat a ≠ .SAT_SYM := by cases a <;> decide

/-- what `Node.proxy_eq` says about positions -/
theorem node_eq {nd : Node} {s : QState} {q : QSite} (hq : nd.site = some q) (aggressive : Bool) {xs : List (List ℚ)}
    (h : nd.WF s ∧ nd.AllTraced s ∧ nd.InRange s xs) :
    nd.out s.fbw xs = (List.range (prodL q.outShape)).map (nd.proxyAt s (proxySat aggressive) xs) := by
  obtain ⟨f, hf, h2⟩ := nd.toProxy_ok h.2.1 (proxySat aggressive)
  rw [← Node.proxy_eq h.1 h.2.1 aggressive hf h.2.2, h2, hq]

theorem one_of_length {xs : List (List ℚ)} (h : xs.length = 1) : ∃ x, xs = [x] := by
  match xs, h with
  | [x], _ => exact ⟨x, rfl⟩

theorem hgqSem_faithful (aggressive : Bool) : Faithful (hgqSem aggressive) where
  hQuantize := by
    intro d xs y h
    cases d with
    | node nd s =>
      simp only [hgqSem] at h
      split_ifs at h with hc
      cases h
      obtain ⟨h1, h2, h3, hk⟩ := hc
      obtain ⟨q, rfl, hk⟩ := hk
      · obtain ⟨x, rfl⟩ := one_of_length hk
        refine ⟨x, rfl, ?_⟩
        rw [node_eq (q := q) rfl aggressive ⟨h1, h2, h3⟩]
        rfl
    | sig _ => simp [hgqSem] at h
    | plain _ => simp [hgqSem] at h
  signature := by
    intro d xs y h
    cases d with
    | node nd s => simp [hgqSem] at h
    | plain _ => simp [hgqSem] at h
    | sig ts =>
      simp only [hgqSem] at h
      match xs, h with
      | [x], h =>
        simp only at h
        split_ifs at h with hc
        obtain rfl := Option.some.inj h
        refine ⟨_, rfl, ?_⟩
        simp only [hgqSem, Option.some.injEq]
        apply List.ext_getElem
        · simp [hc.1]
        · intro p h1 h2
          simp only [List.length_map, List.length_range] at h1
          have h3 : ts.getD p default = ts[p] := by simp [List.getD, h1]
          simp only [List.getElem_map, List.getElem_range, h3]
          have h4 := hc.2 p h1
          have h5 : x.getD p 0 = x[p] := by simp [List.getD, h2]
          rw [← h5]
          unfold KBI.init KBI.apply
          split_ifs with hb
          · have hb' : ts[p].2.1 = 0 := by exact_mod_cast hb
            rw [hb', isApFixed_zero_width] at h4
            rw [hb']; simp only [Nat.cast_zero, gfixed_zero_bits, h4]
          · exact C02_representable_unchanged _ _ _ _ _ _ h4 (fun hS => absurd hS (proxySat_ne _))
      | [], h => simp at h
      | _ :: _ :: _, h => simp at h
  hRelu := by
    intro n linear known d xs y h
    cases d with
    | node nd s =>
      simp only [hgqSem] at h
      split_ifs at h with hc
      cases h
      obtain ⟨h1, h2, h3, hk⟩ := hc
      rcases hk with ⟨kind, φ, q, rfl, hk⟩ | ⟨q, rfl, hk⟩ | ⟨L, rfl, hk⟩
      · cases hk.1
      · cases hk.2
      · obtain ⟨-, hr, hl⟩ := hk
        refine ⟨_, _, _, rfl, rfl, rfl, ?_⟩
        rw [node_eq (q := ⟨L.paq, L.outShape, L.qShape⟩) rfl aggressive ⟨h1, h2, h3⟩]
        simp only [hgqSem, Option.some.injEq]
        apply List.map_congr_left
        intro p hp
        have hp := List.mem_range.mp hp
        rw [if_pos trivial, List.map_map, getD_range _ hp]
        simp only [Function.comp, Bool.false_eq_true, if_false, ← hr, if_true, getD_range _ hp]
        simp only [Node.proxyAt, LinLayer.proxyOut, ← hr, if_true]
    | sig _ => simp [hgqSem] at h
    | plain _ => simp [hgqSem] at h
  hPlain := by
    intro n linear known d xs y h
    cases d with
    | node nd s =>
      simp only [hgqSem] at h
      split_ifs at h with hc
      cases h
      obtain ⟨h1, h2, h3, hk⟩ := hc
      rcases hk with ⟨kind, φ, q, rfl, hk⟩ | ⟨q, rfl, hk⟩ | ⟨L, rfl, hk⟩
      · cases hk.1
      · refine ⟨_, rfl, ?_⟩
        rw [node_eq (q := q) rfl aggressive ⟨h1, h2, h3⟩]
        simp only [hgqSem, Node.site, Option.map_some, Option.some.injEq]
        apply List.map_congr_left
        intro p hp
        have hp := List.mem_range.mp hp
        simp only [Node.pre, Node.site]
        rw [getD_range _ hp]
        rfl
      · obtain ⟨-, hr, hl⟩ := hk
        refine ⟨_, rfl, ?_⟩
        rw [node_eq (q := ⟨L.paq, L.outShape, L.qShape⟩) rfl aggressive ⟨h1, h2, h3⟩]
        simp only [hgqSem, Option.some.injEq]
        apply List.map_congr_left
        intro p hp
        have hp := List.mem_range.mp hp
        simp only [Bool.false_eq_true, if_false, ← hr, getD_range _ hp]
        simp only [Node.proxyAt, LinLayer.proxyOut, ← hr, Bool.false_eq_true, if_false]
    | sig _ => simp [hgqSem] at h
    | plain _ => simp [hgqSem] at h
  hAct := by
    intro n relu known d xs y h
    cases d with
    | node nd s =>
      simp only [hgqSem] at h
      split_ifs at h with hc
      cases h
      obtain ⟨h1, h2, h3, hk⟩ := hc
      rcases hk with ⟨kind, φ, q, rfl, hk⟩ | ⟨q, rfl, hk⟩ | ⟨L, rfl, hk⟩
      · refine ⟨_, rfl, ?_⟩
        rw [node_eq (q := q) rfl aggressive ⟨h1, h2, h3⟩]
        simp only [hgqSem, Node.site, Option.map_some, Option.some.injEq]
        apply List.map_congr_left
        intro p hp
        have hp := List.mem_range.mp hp
        simp only [Node.pre, Node.site]
        rw [getD_range _ hp]
        rfl
      · cases hk.1
      · cases hk.1
    | sig _ => simp [hgqSem] at h
    | plain _ => simp [hgqSem] at h
  hActLinear := by
    intro n relu known d xs y h
    cases d with
    | node nd s =>
      simp only [hgqSem] at h
      split_ifs at h with hc
      cases h
      obtain ⟨h1, h2, h3, hk⟩ := hc
      rcases hk with ⟨kind, φ, q, rfl, hk⟩ | ⟨q, rfl, hk⟩ | ⟨L, rfl, hk⟩
      · obtain ⟨-, hφ, hl⟩ := hk
        obtain rfl := hφ rfl
        obtain ⟨x, rfl⟩ := one_of_length hl
        refine ⟨x, rfl, ?_⟩
        rw [node_eq (q := q) rfl aggressive ⟨h1, h2, h3⟩]
        rfl
      · cases hk.1
      · cases hk.1
    | sig _ => simp [hgqSem] at h
    | plain _ => simp [hgqSem] at h
  passive := by
    intro known d xs y h
    cases d with
    | node nd s =>
      simp only [hgqSem] at h
      split_ifs at h with hc
      cases h
      obtain ⟨g, rfl, -⟩ := hc
      rfl
    | sig _ => simp [hgqSem] at h
    | plain _ => simp [hgqSem] at h
  dropout := by
    intro known d xs y h
    cases d with
    | node nd s =>
      simp only [hgqSem] at h
      split_ifs at h with hc
      cases h
      obtain ⟨g, rfl, hc⟩ := hc
      exact hc rfl
    | sig _ => simp [hgqSem] at h
    | plain _ => simp [hgqSem] at h

/-- **C71.** Nested models of HGQ layers, whole pipeline: on every input on which a nested functional model of `HQuantize`,
`HDense`/`HConv`, `HActivation`, `HAdd`, `Signature`, passive and plain layers (with any sharing) runs inside the recorded
ranges and gives `ys`, `to_proxy_model` returns a flat model of Keras layers and `FixedPointQuantizer`s, and that model
gives exactly `ys`. -/
theorem C71_nested_model_bit_accurate (aggressive : Bool) (inputs : List ℕ) (nodes : NodeTab (LK LDesc))
    (outputs : List (ℕ × ℕ)) (hg : GraphOK inputs nodes outputs) (ho : ∀ o ∈ outputs, o.2 = 0)
    (h0 : ∀ n l args, nodes.find n = some (l, args) → ∀ a ∈ args, a.2 = 0)
    (hso : ∀ n l args, nodes.find n = some (l, args) → SingleOut (fun _ => 1) l) (xs ys : List (List ℚ))
    (hev : Eval (hgqSem aggressive).sem (.model inputs nodes outputs) xs ys) :
    (∃ N, ∀ fuel, N ≤ fuel → ∃ p ren, convert (fun _ => 1) proxyXf fuel inputs nodes outputs = .ok (p, ren)) ∧
    ∀ fuel p ren, convert (fun _ => 1) proxyXf fuel inputs nodes outputs = .ok (p, ren) →
      p.eval (hgqSem aggressive).sem xs = some ys :=
  C71_model_proxy_agree (hgqSem aggressive) (hgqSem_faithful aggressive) inputs nodes outputs hg ho h0 hso xs ys hev

/-! a case: quantize the input, a nested model with a dense layer with relu, and an addition around it -/

namespace Ex71

def dense : Lay (LK LDesc) :=
  .model [0] [(1, .leaf 2 "dense" (.hLayer 1 false false true true (.node (.linear (exDense 0 [2] true)) exState)), [(0, 0)])]
    [(1, 0)]

def nodes : NodeTab (LK LDesc) :=
  [(1, .leaf 1 "q" (.hQuantize (.node (.quantize exAct) exState)), [(0, 0)]), (2, dense, [(1, 0)]),
   (3, .leaf 3 "add" (.hLayer 2 false true false true (.node (.add exAct) exState)), [(1, 0), (2, 0)])]

theorem find_nodes {n l args} (h : nodes.find n = some (l, args)) :
    (n = 1 ∧ l = .leaf 1 "q" (.hQuantize (.node (.quantize exAct) exState)) ∧ args = [(0, 0)]) ∨
    (n = 2 ∧ l = dense ∧ args = [(1, 0)]) ∨
    (n = 3 ∧ l = .leaf 3 "add" (.hLayer 2 false true false true (.node (.add exAct) exState)) ∧ args = [(1, 0), (2, 0)]) := by
  have := find_entry h
  simpa only [nodes, List.mem_cons, Prod.mk.injEq, List.not_mem_nil, or_false] using this

theorem find_dense {n l args} (h : NodeTab.find (α := LK LDesc) [(1, Lay.leaf 2 "dense" (.hLayer 1 false false true true
      (.node (.linear (exDense 0 [2] true)) exState)), [(0, 0)])] n = some (l, args)) :
    n = 1 ∧ l = .leaf 2 "dense" (.hLayer 1 false false true true (.node (.linear (exDense 0 [2] true)) exState)) ∧
      args = [(0, 0)] := by
  have := find_entry h
  simpa only [List.mem_cons, Prod.mk.injEq, List.not_mem_nil, or_false] using this

theorem dense_single : SingleOut (fun _ => 1) dense := by
  refine .model _ _ _ rfl ⟨?_, ⟨id, ?_⟩⟩ (by simp) ?_ ?_
  · intro n hn
    cases hn with
    | output o ho => simp at ho; subst ho; right; rfl
    | parent n l args a _ hf ha =>
      obtain ⟨-, -, rfl⟩ := find_dense hf
      simp at ha; subst ha; left; simp
  · intro n l args hf a ha
    obtain ⟨rfl, -, rfl⟩ := find_dense hf
    simp at ha; subst ha; decide
  · intro n l args hf a ha
    obtain ⟨-, -, rfl⟩ := find_dense hf
    simp at ha; subst ha; rfl
  · intro n l args hf
    obtain ⟨-, rfl, -⟩ := find_dense hf
    exact .leaf _ _ _ rfl

theorem graph_ok : GraphOK [0] nodes [(3, 0)] := by
  refine ⟨?_, ⟨id, ?_⟩⟩
  · intro n hn
    cases hn with
    | output o ho => simp at ho; subst ho; right; rfl
    | parent n l args a _ hf ha =>
      rcases find_nodes hf with ⟨-, -, rfl⟩ | ⟨-, -, rfl⟩ | ⟨-, -, rfl⟩
      · simp at ha; subst ha; left; simp
      · simp at ha; subst ha; right; rfl
      · simp at ha; rcases ha with rfl | rfl <;> (right; rfl)
  · intro n l args hf a ha
    rcases find_nodes hf with ⟨rfl, -, rfl⟩ | ⟨rfl, -, rfl⟩ | ⟨rfl, -, rfl⟩
    · simp at ha; subst ha; decide
    · simp at ha; subst ha; decide
    · simp at ha; rcases ha with rfl | rfl <;> decide

theorem idx (n : ℕ) (l : Lay (LK LDesc)) (args : List (ℕ × ℕ)) (hf : nodes.find n = some (l, args)) : ∀ a ∈ args, a.2 = 0 := by
  intro a ha
  rcases find_nodes hf with ⟨rfl, -, rfl⟩ | ⟨rfl, -, rfl⟩ | ⟨rfl, -, rfl⟩
  · simp at ha; subst ha; rfl
  · simp at ha; subst ha; rfl
  · simp at ha; rcases ha with rfl | rfl <;> rfl

theorem single (n : ℕ) (l : Lay (LK LDesc)) (args : List (ℕ × ℕ)) (hf : nodes.find n = some (l, args)) :
    SingleOut (fun _ => 1) l := by
  rcases find_nodes hf with ⟨-, rfl, -⟩ | ⟨-, rfl, -⟩ | ⟨-, rfl, -⟩
  · exact .leaf _ _ _ rfl
  · exact dense_single
  · exact .leaf _ _ _ rfl

theorem wf (nd : Node) (h : nd = .quantize exAct ∨ nd = .add exAct ∨ nd = .linear (exDense 0 [2] true)) :
    nd.WF exState ∧ nd.AllTraced exState := by
  have c2 : Compat [2] [2] := by decide
  have hcl : ∀ e, exAct.conf.clip (exState.fbw e) = exState.fbw e := fun e => (exDense_wf 0 false).clip e
  have hfb : ∀ e, -32 ≤ exState.fbw e := by
    intro e
    show (-32 : ℚ) ≤ if e = 0 then _ else _
    split_ifs <;> norm_num
  have ht : ∀ e < 2, ∃ lo hi, Traced exState e lo hi := by
    intro e he
    obtain rfl | rfl : e = 0 ∨ e = 1 := by omega
    · exact ⟨_, _, exState_traced0⟩
    · exact ⟨_, _, exState_traced1⟩
  rcases h with rfl | rfl | rfl
  all_goals
    refine ⟨⟨?_, ?_, ?_, ?_, ?_⟩, ?_⟩
    all_goals first
      | (intro _ _ _ h; cases h)
      | (intro q hq; cases hq; done)
      | (intro q hq; cases hq; first | exact c2 | exact hcl | exact hfb | exact ht | exact .inl rfl)

theorem q_step (a : Bool) : (hgqSem a).sem (.hQuantize (.node (.quantize exAct) exState)) [[1, 1 / 3]] = some [[1, 1 / 4]] := by
  have hr : (Node.quantize exAct).InRange exState [[1, 1 / 3]] := by intro q hq; cases hq; decide +kernel
  obtain ⟨h1, h2⟩ := wf (.quantize exAct) (Or.inl rfl)
  have ho : (Node.quantize exAct).out exState.fbw [[1, 1 / 3]] = [1, 1 / 4] := by decide +kernel
  simp only [LayerSem.sem, hgqSem]
  rw [if_pos ⟨h1, h2, hr, exAct, rfl, rfl⟩, ho]
  rfl

theorem dense_step (a : Bool) : (hgqSem a).sem (.hLayer 1 false false true true (.node (.linear (exDense 0 [2] true)) exState))
    [[1, 1 / 4]] = some [[3 / 2, 0]] := by
  have hr : (Node.linear (exDense 0 [2] true)).InRange exState [[1, 1 / 4]] := by intro q hq; cases hq; decide +kernel
  obtain ⟨h1, h2⟩ := wf (.linear (exDense 0 [2] true)) (Or.inr (Or.inr rfl))
  have ho : (Node.linear (exDense 0 [2] true)).out exState.fbw [[1, 1 / 4]] = [3 / 2, 0] := by decide +kernel
  simp only [LayerSem.sem, hgqSem]
  rw [if_pos (by decide), if_pos ⟨h1, h2, hr, Or.inr (Or.inr ⟨_, rfl, rfl, rfl, rfl⟩)⟩, ho]
  rfl

theorem add_step (a : Bool) : (hgqSem a).sem (.hLayer 2 false true false true (.node (.add exAct) exState))
    [[1, 1 / 4], [3 / 2, 0]] = some [[5 / 2, 1 / 4]] := by
  have hr : (Node.add exAct).InRange exState [[1, 1 / 4], [3 / 2, 0]] := by intro q hq; cases hq; decide +kernel
  obtain ⟨h1, h2⟩ := wf (.add exAct) (Or.inr (Or.inl rfl))
  have ho : (Node.add exAct).out exState.fbw [[1, 1 / 4], [3 / 2, 0]] = [5 / 2, 1 / 4] := by decide +kernel
  simp only [LayerSem.sem, hgqSem]
  rw [if_pos (by decide), if_pos ⟨h1, h2, hr, Or.inr (Or.inl ⟨_, rfl, rfl, rfl⟩)⟩, ho]
  rfl

theorem model_eval (a : Bool) : Eval (hgqSem a).sem (.model [0] nodes [(3, 0)]) [[1, 1 / 3]] [[5 / 2, 1 / 4]] := by
  refine .model _ _ _ _ _ (fun n => if n = 0 then [[1, 1 / 3]] else if n = 1 then [[1, 1 / 4]] else
    if n = 2 then [[3 / 2, 0]] else [[5 / 2, 1 / 4]])
    (fun n => if n = 1 then [[1, 1 / 3]] else if n = 2 then [[1, 1 / 4]] else [[1, 1 / 4], [3 / 2, 0]]) rfl ?_ ?_ rfl
  · intro n l args _ _ hf
    rcases find_nodes hf with ⟨rfl, rfl, rfl⟩ | ⟨rfl, rfl, rfl⟩ | ⟨rfl, rfl, rfl⟩ <;> rfl
  · intro n l args _ _ hf
    rcases find_nodes hf with ⟨rfl, rfl, rfl⟩ | ⟨rfl, rfl, rfl⟩ | ⟨rfl, rfl, rfl⟩
    · exact .leaf _ _ _ _ _ (q_step a)
    · refine .model _ _ _ _ _ (fun n => if n = 0 then [[1, 1 / 4]] else [[3 / 2, 0]]) (fun _ => [[1, 1 / 4]]) rfl ?_ ?_ rfl
      · intro n l args _ _ hf
        obtain ⟨rfl, rfl, rfl⟩ := find_dense hf
        rfl
      · intro n l args _ _ hf
        obtain ⟨rfl, rfl, rfl⟩ := find_dense hf
        exact .leaf _ _ _ _ _ (dense_step a)
    · exact .leaf _ _ _ _ _ (add_step a)

end Ex71

/-- the hypotheses of C71 are met by it, and the converted model has the expected layers -/
example (a : Bool) : ∃ p ren, convert (fun _ => 1) proxyXf 20 [0] Ex71.nodes [(3, 0)] = .ok (p, ren) ∧
    p.calls.map (·.name) = ["q", "dense", "dense_quantizer", "re_lu", "dense_relu_quantizer", "add", "add_quantizer"] ∧
    p.eval (hgqSem a).sem [[1, 1 / 3]] = some [[5 / 2, 1 / 4]] :=
  ⟨_, _, rfl, rfl, (C71_nested_model_bit_accurate a [0] Ex71.nodes [(3, 0)] Ex71.graph_ok (by simp) Ex71.idx Ex71.single _ _
    (Ex71.model_eval a)).2 20 _ _ rfl⟩

end HGQ.Convert
