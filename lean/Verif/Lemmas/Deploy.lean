import Verif.Model.Deploy
import Verif.Lemmas.PrecGraph
import Verif.Props.Net

/-!
Lemmas for C92: the proxy graph of a network computes what the proxy of the network computes.
-/

namespace HGQ

open Spec

/-! ### evaluating a chain of layers -/

/-- one step of `PGraph.eval` -/
def evalStep (xs : ℕ → List ℚ) (env : List (List ℚ)) (e : PLay × List ℕ) : List (List ℚ) :=
  env ++ [match e.1 with
    | .input => xs env.length
    | l => l.eval (e.2.map (env.getD · []))]

theorem PGraph.eval_append (g h : PGraph) (xs : ℕ → List ℚ) : PGraph.eval (g ++ h) xs = h.foldl (evalStep xs) (g.eval xs) := by
  unfold PGraph.eval; rw [List.foldl_append]; rfl

/-- the values of layers one after the other -/
def chainVals : List PLay → List (List ℚ) → List (List ℚ)
  | [], _ => []
  | l :: ls, ins => l.eval ins :: chainVals ls [l.eval ins]

theorem evalStep_ne {l : PLay} (h : l ≠ .input) (xs : ℕ → List ℚ) (env : List (List ℚ)) (ins : List ℕ) :
    evalStep xs env (l, ins) = env ++ [l.eval (ins.map (env.getD · []))] := by
  unfold evalStep
  cases l <;> first | rfl | exact absurd rfl h

theorem chain_eval (xs : ℕ → List ℚ) : ∀ (ls : List PLay) (env : List (List ℚ)) (ins : List ℕ), (∀ l ∈ ls, l ≠ PLay.input) →
    (chain env.length ls ins).foldl (evalStep xs) env = env ++ chainVals ls (ins.map (env.getD · []))
  | [], env, ins, _ => by simp [chain, chainVals]
  | l :: ls, env, ins, h => by
    have e := evalStep_ne (h l (by simp)) xs env ins
    unfold chain chainVals
    rw [List.foldl_cons, e]
    have := chain_eval xs ls (env ++ [l.eval (ins.map (env.getD · []))]) [env.length] fun l hl => h l (by simp [hl])
    rw [List.length_append, List.length_singleton] at this
    rw [this]
    simp

theorem chainVals_length : ∀ (ls : List PLay) (v : List (List ℚ)), (chainVals ls v).length = ls.length
  | [], _ => rfl
  | l :: ls, v => by simp [chainVals, chainVals_length ls]

theorem chain_length : ∀ (n : ℕ) (ls : List PLay) (ins : List ℕ), (chain n ls ins).length = ls.length
  | _, [], _ => rfl
  | n, l :: ls, ins => by simp [chain, chain_length (n + 1) ls]

/-! ### what a node's description must say -/

/-- The description of a node is right: the Keras layer of an activation or passive layer computes its function, all kernel entries
used are counted, and channels with a bias have a position in it. -/
structure Node.Described (nd : Node) (d : Desc) : Prop where
  act : ∀ kind φ q, nd = .activation kind φ q → d.klayer ≠ .input ∧ ∀ ins, d.klayer.eval ins = φ (ins.headD [])
  passive : ∀ g, nd = .passive g → d.klayer ≠ .input ∧ ∀ ins, d.klayer.eval ins = g ins
  kernel : ∀ L, nd = .linear L → ∀ p < prodL L.outShape, ∀ t ∈ L.taps p, t.2 < d.kernelSize
  chan : ∀ L, nd = .linear L → L.bias ≠ none → ∀ p < prodL L.outShape, L.chan p < L.nChan
  shape : ∀ q, nd.site = some q → Compat q.outShape q.qShape

theorem compat_ones : ∀ {o s : List ℕ}, Compat o s → Compat o (o.map fun _ => 1)
  | [], [], _ => trivial
  | _ :: _, _ :: _, h => ⟨h.1, .inl rfl, compat_ones h.2.2⟩

theorem prodL_ones : ∀ o : List ℕ, prodL (o.map fun _ => 1) = 1
  | [] => rfl
  | _ :: o => by
    have := prodL_ones o
    simp only [List.map_cons, prodL, this]

theorem at0_map_range {n : ℕ} (f : ℕ → ℚ) {p : ℕ} (hp : p < n) : at0 ((List.range n).map f) p = f p := by
  unfold at0
  rw [getD_lt _ _ (by simpa using hp)]
  simp

theorem quantLay_eval (q : QSite) (hc : Compat q.outShape q.qShape) (s : QState) (S : Sat) (po cov : Bool) (v : List ℚ) :
    (q.quantLay s S po cov).eval [v] = (List.range (prodL q.outShape)).map fun p =>
      (proxyQ (bitsExact ((s.mn (q.elem p)).untopD 0) ((s.mx (q.elem p)).unbotD 0) (s.fbw (q.elem p)) po)).apply
        (proxyRnd q.conf.strategy cov) S (at0 v p) := by
  unfold QSite.quantLay PLay.eval
  simp only [List.headD_cons]
  apply List.map_congr_left
  intro p hp
  have he := elemOf_lt hc (List.mem_range.mp hp)
  unfold FPQ.call
  rw [getD_lt _ _ (by simpa using he)]
  simp [QSite.elem]

theorem kerasLay_eval {L : LinLayer} {d : Desc} (hd : (Node.linear L).Described d) (s : QState) (ins : List (List ℚ)) :
    (L.kerasLay s d).eval ins = (List.range (prodL L.outShape)).map (L.klayer s (ins.headD [])) := by
  unfold LinLayer.kerasLay PLay.eval
  apply List.map_congr_left
  intro p hp
  have hp := List.mem_range.mp hp
  unfold LinLayer.klayer LinLayer.preact
  congr 1
  · congr 1
    apply List.map_congr_left
    intro t ht
    rw [at0_map_range _ (hd.kernel L rfl p hp t ht)]
    rfl
  · cases hb : L.bias with
    | none => simp [at0, LinLayer.fusedQBias, hb]
    | some b => exact at0_map_range _ (hd.chan L rfl (by simp [hb]) p hp)

theorem preRelu_eval (L : LinLayer) {q : List ℕ} (hc : Compat L.outShape q) (s : QState) (S : Sat) (v : List ℚ) :
    (L.preReluLay s S).eval [v] = (List.range (prodL L.outShape)).map fun p =>
      let t := L.reluKif s
      let R := proxyRnd L.paq.strategy L.canBiasCover
      let fAdd : ℤ := if R = .TRN then 0 else if R = .RND then 1 else 2
      (KBI.init t.k (t.k + t.i + t.f + fAdd) (t.k + t.i)).apply .TRN S (at0 v p) := by
  unfold LinLayer.preReluLay PLay.eval
  simp only [List.headD_cons]
  apply List.map_congr_left
  intro p hp
  have he := elemOf_lt (compat_ones hc) (List.mem_range.mp hp)
  rw [prodL_ones] at he
  have : elemOf L.outShape (L.outShape.map fun _ => 1) p = 0 := by omega
  rw [this]
  rfl

/-- the layers made from a node compute, at the end, what the proxy of the node computes -/
theorem Node.lays_eval {nd : Node} {d : Desc} (hd : nd.Described d) {s : QState} {S : Sat} {f : List (List ℚ) → List ℚ}
    (hf : nd.toProxy s S = .ok f) (ins : List (List ℚ)) :
    (chainVals (nd.lays s S d) ins).getLast? = some (f ins) ∧ (∀ l ∈ nd.lays s S d, l ≠ PLay.input) := by
  have hval : f ins = match nd.site with
      | none => nd.pre s.fbw ins
      | some q => (List.range (prodL q.outShape)).map (nd.proxyAt s S ins) := by
    unfold Node.toProxy at hf
    cases hs : nd.site with
    | none => rw [hs] at hf; cases hf; rfl
    | some q =>
      rw [hs] at hf
      simp only at hf
      split at hf
      · cases hf
      · cases hf; rfl
  rw [hval]
  have hq : ∀ q : QSite, ∀ a b, q.quantLay s S a b ≠ PLay.input := fun q a b => by unfold QSite.quantLay; simp
  cases nd with
  | quantize q =>
    refine ⟨?_, by simp [Node.lays, hq]⟩
    simp only [Node.lays, chainVals, Node.site, List.getLast?_singleton, Option.some.injEq]
    have hc := hd.shape q rfl
    have : (q.quantLay s S false false).eval ins = (q.quantLay s S false false).eval [ins.headD []] := by
      unfold QSite.quantLay PLay.eval; rfl
    rw [this, quantLay_eval q hc]
    rfl
  | activation kind φ q =>
    obtain ⟨h1, h2⟩ := hd.act kind φ q rfl
    refine ⟨?_, by simp [Node.lays, hq, h1]⟩
    simp only [Node.lays, chainVals, Node.site, List.getLast?_cons_cons, List.getLast?_singleton, Option.some.injEq]
    rw [quantLay_eval q (hd.shape q rfl), h2]
    rfl
  | add q =>
    refine ⟨?_, by simp [Node.lays, hq]⟩
    simp only [Node.lays, chainVals, Node.site, List.getLast?_cons_cons, List.getLast?_singleton, Option.some.injEq]
    rw [quantLay_eval q (hd.shape q rfl)]
    apply List.map_congr_left
    intro p hp
    have : at0 ((PLay.add (prodL q.outShape)).eval ins) p = (ins.map (at0 · p)).sum := at0_map_range _ (List.mem_range.mp hp)
    rw [this]
    rfl
  | linear L =>
    have hc := hd.shape _ rfl
    have hk : L.kerasLay s d ≠ PLay.input := by unfold LinLayer.kerasLay; simp
    have hpr : L.preReluLay s S ≠ PLay.input := by unfold LinLayer.preReluLay; simp
    cases hr : L.reluAct with
    | false =>
      refine ⟨?_, by simp [Node.lays, hq, hr, hk]⟩
      simp only [Node.lays, hr, Bool.false_eq_true, if_false, chainVals, Node.site, List.getLast?_cons_cons,
        List.getLast?_singleton, Option.some.injEq]
      rw [quantLay_eval _ hc, kerasLay_eval hd]
      apply List.map_congr_left
      intro p hp
      rw [at0_map_range _ (List.mem_range.mp hp)]
      simp only [Node.proxyAt, LinLayer.proxyOut, hr, Bool.false_eq_true, if_false]
      rfl
    | true =>
      refine ⟨?_, by simp [Node.lays, hq, hr, hk, hpr]⟩
      simp only [Node.lays, hr, if_true, chainVals, Node.site, List.getLast?_cons_cons,
        List.getLast?_singleton, Option.some.injEq]
      rw [quantLay_eval _ hc, preRelu_eval L hc, kerasLay_eval hd]
      apply List.map_congr_left
      intro p hp
      have hp := List.mem_range.mp hp
      have e1 : ∀ v : List ℚ, (PLay.act false .other relu).eval [v] = v.map relu := fun _ => rfl
      rw [e1, List.map_map, at0_map_range _ hp]
      simp only [Function.comp]
      rw [at0_map_range _ hp]
      simp only [Node.proxyAt, LinLayer.proxyOut, hr, if_true]
      rfl
  | passive g =>
    obtain ⟨h1, h2⟩ := hd.passive g rfl
    refine ⟨?_, by simp [Node.lays, h1]⟩
    simp only [Node.lays, chainVals, Node.site, List.getLast?_singleton, Option.some.injEq]
    rw [h2]; rfl

/-! ### whole networks -/

/-- every node reads tensors that exist: the inputs (`n` tensors) and the outputs of earlier nodes -/
def Net.Wired : ℕ → Net → Prop
  | _, [] => True
  | n, (_, ins) :: net => (∀ i ∈ ins, i < n) ∧ Net.Wired (n + 1) net

/-- one description for each node, and it is right -/
def Net.Described : Net → List Desc → Prop
  | [], [] => True
  | (nd, _) :: net, d :: ds => nd.Described d ∧ Net.Described net ds
  | _, _ => False

/-- the graph built so far computes the tensors `env` -/
structure Built.Computes (b : Built) (xs : ℕ → List ℚ) (env : List (List ℚ)) : Prop where
  len : b.pos.length = env.length
  lt : ∀ i < env.length, b.pos.getD i 0 < b.graph.length
  val : ∀ i < env.length, b.graph.value xs (b.pos.getD i 0) = env.getD i []

theorem getD_append_left' {α : Type} {l r : List α} {n : ℕ} (h : n < l.length) (d : α) : (l ++ r).getD n d = l.getD n d := by
  simp [List.getD, List.getElem?_append_left h]

theorem getD_append_right' {α : Type} {l r : List α} {n : ℕ} (h : l.length ≤ n) (d : α) : (l ++ r).getD n d = r.getD (n - l.length) d := by
  simp [List.getD, List.getElem?_append_right h]

theorem getLast?_getD {α : Type} {l : List α} {a : α} (h : l.getLast? = some a) (d : α) : l.getD (l.length - 1) d = a := by
  rw [List.getLast?_eq_getElem?] at h
  simp [List.getD, h]

theorem Built.Computes.add {b : Built} {xs : ℕ → List ℚ} {env : List (List ℚ)} (h : b.Computes xs env) {nd : Node} {d : Desc}
    (hd : nd.Described d) {s : QState} {S : Sat} {f : List (List ℚ) → List ℚ} (hf : nd.toProxy s S = .ok f) {ins : List ℕ}
    (hins : ∀ i ∈ ins, i < env.length) : (b.add (nd.lays s S d) ins).Computes xs (env ++ [f (gather env ins)]) := by
  obtain ⟨hlast, hne⟩ := nd.lays_eval hd hf (gather env ins)
  have hl0 : nd.lays s S d ≠ [] := by
    intro h0; rw [h0] at hlast; simp [chainVals] at hlast
  have hpos : 0 < (nd.lays s S d).length := List.length_pos_of_ne_nil hl0
  have hel := b.graph.eval_length xs
  have hvals : (b.add (nd.lays s S d) ins).graph.eval xs = b.graph.eval xs ++ chainVals (nd.lays s S d) (gather env ins) := by
    unfold Built.add
    simp only
    rw [PGraph.eval_append, ← hel, chain_eval xs _ _ _ hne]
    congr 2
    rw [List.map_map]
    apply List.map_congr_left
    intro i hi
    exact h.val i (hins i hi)
  have hgl : (b.add (nd.lays s S d) ins).graph.length = b.graph.length + (nd.lays s S d).length := by
    unfold Built.add; simp [chain_length]
  refine ⟨?_, ?_, ?_⟩
  · unfold Built.add; simp [h.len]
  · intro i hi
    rw [hgl]
    unfold Built.add
    simp only
    rw [List.length_append, List.length_singleton] at hi
    rcases Nat.lt_or_ge i env.length with h' | h'
    · rw [getD_append_left' (by rw [h.len]; exact h')]
      have := h.lt i h'
      omega
    · have : i = b.pos.length := by rw [h.len]; omega
      subst this
      simp
      omega
  · intro i hi
    rw [List.length_append, List.length_singleton] at hi
    unfold PGraph.value
    rw [hvals]
    unfold Built.add
    simp only
    rcases Nat.lt_or_ge i env.length with h' | h'
    · rw [getD_append_left' (l := b.pos) (by rw [h.len]; exact h'), getD_append_left' h',
        getD_append_left' (by rw [hel]; exact h.lt i h')]
      exact h.val i h'
    · have : i = env.length := by omega
      subst this
      rw [getD_append_right' (l := b.pos) (by rw [h.len]), getD_append_right' (l := env) (le_refl _), h.len, Nat.sub_self]
      simp only [List.getD_cons_zero]
      rw [getD_append_right' (by rw [hel]; omega), hel,
        show b.graph.length + (nd.lays s S d).length - 1 - b.graph.length = (chainVals (nd.lays s S d) (gather env ins)).length - 1 by
          rw [chainVals_length]; omega]
      exact getLast?_getD hlast []

theorem build_computes {S : Sat} {xs : ℕ → List ℚ} : ∀ {net : Net} {ss : List QState} {ds : List Desc} {pm : PNet} {b : Built}
    {env : List (List ℚ)}, net.toProxy S ss = .ok pm → net.Wired env.length → net.Described ds → b.Computes xs env →
    (net.build S ss ds b).Computes xs (pm.eval env)
  | [], _, [], pm, b, env, hp, _, _, h => by cases hp; exact h
  | (nd, ins) :: net, [], _, pm, b, env, hp, _, _, _ => by cases hp
  | (nd, ins) :: net, s :: ss, d :: ds, pm, b, env, hp, hw, hd, h => by
    unfold Net.toProxy at hp
    cases hf : nd.toProxy s S with
    | error e => rw [hf] at hp; cases hp
    | ok f =>
      cases hr : Net.toProxy S net ss with
      | error e => rw [hf, hr] at hp; cases hp
      | ok r =>
        rw [hf, hr] at hp
        cases hp
        have := build_computes (xs := xs) hr (by simpa using hw.2) hd.2 (h.add hd.1 hf hw.1)
        exact this

theorem inputs_computes (nIn : ℕ) (xs : ℕ → List ℚ) :
    Built.Computes ⟨(List.range nIn).map fun _ => (.input, []), List.range nIn⟩ xs ((List.range nIn).map xs) := by
  have hg : ∀ i < nIn, PGraph.lay ((List.range nIn).map fun _ => (PLay.input, [])) i = some .input := by
    intro i hi
    simp [PGraph.lay, hi]
  refine ⟨by simp, ?_, ?_⟩
  · intro i hi
    simp only [List.length_map, List.length_range] at hi ⊢
    rw [getD_lt _ _ (by simpa using hi)]
    simpa using hi
  · intro i hi
    simp only [List.length_map, List.length_range] at hi
    rw [getD_lt _ _ (by simpa using hi), getD_lt _ _ (by simpa using hi)]
    simp only [List.getElem_range, List.getElem_map]
    exact PGraph.value_input (hg i hi) xs

/-- **C92**, conversion: the proxy model, layer by layer, computes every tensor of the proxy of the network. -/
theorem deploy_computes {net : Net} {ss : List QState} {ds : List Desc} {pm : PNet} {S : Sat} {nIn : ℕ}
    (hp : net.toProxy S ss = .ok pm) (hw : net.Wired nIn) (hd : net.Described ds) (xs : ℕ → List ℚ) :
    (net.deploy ss S ds nIn).Computes xs (pm.eval ((List.range nIn).map xs)) :=
  build_computes hp (by simpa using hw) hd (inputs_computes nIn xs)

end HGQ
