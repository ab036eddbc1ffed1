import Verif.Lemmas.DeployRec
import Verif.Props.Deploy

/-!
The activation quantizers of a deployed network are quantizers made from ranges recorded on the calibration samples: the induction
over the network.
-/

namespace HGQ

open Spec

/-! ### extending a graph -/

theorem evalStep_prefix (xs : ℕ → List ℚ) : ∀ (h : PGraph) (env : List (List ℚ)), ∃ t, h.foldl (evalStep xs) env = env ++ t
  | [], env => ⟨[], by simp⟩
  | e :: h, env => by
    obtain ⟨t, ht⟩ := evalStep_prefix xs h (evalStep xs env e)
    obtain ⟨v, hv⟩ : ∃ v, evalStep xs env e = env ++ [v] := ⟨_, rfl⟩
    exact ⟨v :: t, by rw [List.foldl_cons, ht, hv]; simp⟩

theorem PGraph.value_of_lt {g h : PGraph} {n : ℕ} (hn : n < g.length) (xs : ℕ → List ℚ) :
    PGraph.value (g ++ h) xs n = g.value xs n := by
  unfold PGraph.value
  rw [PGraph.eval_append]
  obtain ⟨t, ht⟩ := evalStep_prefix xs h (g.eval xs)
  rw [ht, getD_append_left' (by rw [PGraph.eval_length]; exact hn)]

theorem PGraph.lay_of_lt {g h : PGraph} {n : ℕ} (hn : n < g.length) : PGraph.lay (g ++ h) n = g.lay n := by
  simp [PGraph.lay, List.getElem?_append_left hn]

theorem PGraph.RecordedAt.append {g : PGraph} (hwf : g.WF) {S : Sat} {D : List (ℕ → List ℚ)} {n : ℕ} (hn : n < g.length) (h : g.RecordedAt S D n)
    (g' : PGraph) : PGraph.RecordedAt (g ++ g') S D n := by
  obtain ⟨q, o, s, h1, h0, h2, h3, h4, h5⟩ := h
  have hr : ∀ {R m r}, g.Reached D n R m r → PGraph.Reached (g ++ g') D n R m r := by
    rintro R m r (h | ⟨xs, hxs, p, h⟩)
    · exact .inl h
    · refine .inr ⟨xs, hxs, p, ?_⟩
      have : (PGraph.ins (g ++ g') n).map (PGraph.value (g ++ g') xs) = (g.ins n).map (g.value xs) := by
        rw [PGraph.ins_of_lt hn]
        apply List.map_congr_left
        intro m hm
        exact PGraph.value_of_lt (lt_trans (hwf n m hm) hn) xs
      rw [this]; exact h
  refine ⟨q, o, s, by rw [PGraph.lay_of_lt hn]; exact h1, h0, h2, h3, h4, fun e he => ?_⟩
  obtain ⟨lo, hi, m, a1, a2, a3, a4, a5⟩ := h5 e he
  refine ⟨lo, hi, m, a1, a2, hr a3, hr a4, fun xs hxs p hp hpe => ?_⟩
  rw [PGraph.value_of_lt hn]
  exact a5 xs hxs p hp hpe

theorem build_extends {S : Sat} : ∀ (net : Net) (ss : List QState) (ds : List Desc) (b : Built),
    (∃ h, (net.build S ss ds b).graph = b.graph ++ h) ∧ ∃ ps, (net.build S ss ds b).pos = b.pos ++ ps
  | [], _, _, _ => ⟨⟨[], by simp [Net.build]⟩, ⟨[], by simp [Net.build]⟩⟩
  | _ :: _, [], _, _ => ⟨⟨[], by simp [Net.build]⟩, ⟨[], by simp [Net.build]⟩⟩
  | _ :: _, _ :: _, [], _ => ⟨⟨[], by simp [Net.build]⟩, ⟨[], by simp [Net.build]⟩⟩
  | (nd, ins) :: net, s :: ss, d :: ds, b => by
    obtain ⟨⟨h, hh⟩, ps, hps⟩ := build_extends net ss ds (b.add (nd.lays s S d) ins)
    unfold Net.build
    refine ⟨⟨chain b.graph.length (nd.lays s S d) (ins.map (b.pos.getD · 0)) ++ h, hh.trans ?_⟩,
      ⟨[b.graph.length + (nd.lays s S d).length - 1] ++ ps, hps.trans ?_⟩⟩
    · unfold Built.add; simp
    · unfold Built.add; simp

/-! ### the last layer of a chain -/

theorem chain_lay : ∀ (ls : List PLay) (n : ℕ) (ins : List ℕ) (j : ℕ), PGraph.lay (chain n ls ins) j = ls[j]?
  | [], n, ins, j => by simp [chain, PGraph.lay]
  | l :: ls, n, ins, 0 => by simp [chain, PGraph.lay]
  | l :: ls, n, ins, j + 1 => by
    have := chain_lay ls (n + 1) [n] j
    simpa [chain, PGraph.lay] using this

theorem chain_ins_zero {l : PLay} {ls : List PLay} {n : ℕ} {ins : List ℕ} : PGraph.ins (chain n (l :: ls) ins) 0 = ins := by
  simp [chain, PGraph.ins]

theorem chain_ins_succ : ∀ (ls : List PLay) (n : ℕ) (ins : List ℕ) (j : ℕ), j + 1 < ls.length →
    PGraph.ins (chain n ls ins) (j + 1) = [n + j]
  | [], n, ins, j, h => by simp at h
  | [l], n, ins, j, h => by simp at h
  | l :: l' :: ls, n, ins, 0, _ => by simp [chain, PGraph.ins]
  | l :: l' :: ls, n, ins, j + 1, h => by
    have := chain_ins_succ (l' :: ls) (n + 1) [n] j (by simpa using h)
    have e : PGraph.ins (chain n (l :: l' :: ls) ins) (j + 1 + 1) = PGraph.ins (chain (n + 1) (l' :: ls) [n]) (j + 1) := by
      simp [chain, PGraph.ins]
    rw [e, this]
    congr 1
    omega

theorem chainVals_append : ∀ (a c : List PLay) (v : List (List ℚ)), ∃ t, chainVals (a ++ c) v = chainVals a v ++ t
  | [], c, v => ⟨chainVals c v, by simp [chainVals]⟩
  | l :: a, c, v => by
    obtain ⟨t, ht⟩ := chainVals_append a c [l.eval v]
    exact ⟨t, by simp [chainVals, ht]⟩

/-- in a graph extended by a chain of layers, the last layer of the chain sees what the layers before it produce -/
theorem last_of_chain (g : PGraph) (init : List PLay) (l : PLay) (ins : List ℕ) (hins : ∀ i ∈ ins, i < g.length)
    (hne : ∀ l' ∈ init ++ [l], l' ≠ PLay.input) (xs : ℕ → List ℚ) :
    PGraph.lay (g ++ chain g.length (init ++ [l]) ins) (g.length + init.length) = some l ∧
    (PGraph.ins (g ++ chain g.length (init ++ [l]) ins) (g.length + init.length)).map
      (PGraph.value (g ++ chain g.length (init ++ [l]) ins) xs) = feedIns init (ins.map (g.value xs)) := by
  have hval : PGraph.eval (g ++ chain g.length (init ++ [l]) ins) xs = g.eval xs ++ chainVals (init ++ [l]) (ins.map (g.value xs)) := by
    have := PGraph.eval_append g (chain g.length (init ++ [l]) ins) xs
    rw [this]
    have h2 := chain_eval xs (init ++ [l]) (g.eval xs) ins hne
    rw [PGraph.eval_length] at h2
    rw [h2]
    rfl
  constructor
  · have : PGraph.lay (g ++ chain g.length (init ++ [l]) ins) (g.length + init.length) =
        PGraph.lay (chain g.length (init ++ [l]) ins) init.length := by
      unfold PGraph.lay
      rw [List.getElem?_append_right (by omega), Nat.add_sub_cancel_left]
    rw [this, chain_lay]
    simp
  · rw [PGraph.ins_of_ge (by omega), Nat.add_sub_cancel_left]
    rcases Nat.eq_zero_or_pos init.length with h0 | h0
    · have : init = [] := List.length_eq_zero_iff.mp h0
      subst this
      rw [show ([] : List PLay).length = 0 from rfl, List.nil_append, chain_ins_zero]
      simp only [feedIns, chainVals, List.getLast?_nil]
      apply List.map_congr_left
      intro i hi
      exact PGraph.value_of_lt (hins i hi) xs
    · obtain ⟨j, hj⟩ : ∃ j, init.length = j + 1 := ⟨init.length - 1, by omega⟩
      rw [hj, chain_ins_succ _ _ _ _ (by simp [hj])]
      obtain ⟨t, ht⟩ := chainVals_append init [l] (ins.map (g.value xs))
      have hlen := chainVals_length init (ins.map (g.value xs))
      have hv : PGraph.value (g ++ chain g.length (init ++ [l]) ins) xs (g.length + j) =
          (chainVals init (ins.map (g.value xs))).getD j [] := by
        unfold PGraph.value
        unfold PGraph.value at hval ht
        rw [hval, getD_append_right' (by rw [PGraph.eval_length]; omega), PGraph.eval_length, Nat.add_sub_cancel_left, ht,
          getD_append_left' (by have := chainVals_length init (ins.map (fun n => (g.eval xs).getD n [])); omega)]
      simp only [List.map_cons, List.map_nil, hv]
      unfold feedIns
      have hl : (chainVals init (ins.map (g.value xs))).getLast? = (chainVals init (ins.map (g.value xs)))[j]? := by
        rw [List.getLast?_eq_getElem?, hlen, hj]; rfl
      rw [hl, List.getElem?_eq_getElem (by omega), getD_lt _ _ (by omega)]

/-! ### one node -/

/-- the quantizer elements of a node are the least ones for the range recorded on the samples, and that range was reached and contains
the outputs -/
theorem Node.elem_recorded {nd : Node} {d : Desc} (hd : nd.Described d) {s : QState} (hw : nd.WF s) (ht : nd.AllTraced s) {S : Sat}
    (hS : S ≠ .SAT_SYM) {q : QSite} (hq : nd.site = some q) {insB : List (List (List ℚ))} (ha : nd.Attained s insB)
    (hr : ∀ ins ∈ insB, nd.InRange s ins) {e : ℕ} (he : e < prodL q.qShape) :
    ∃ lo hi m, (proxyQ (bitsExact ((s.mn e).untopD 0) ((s.mx e).unbotD 0) (s.fbw e) nd.posOnly)).Tight lo hi m ∧ lo ≤ hi ∧
      (∀ ins ∈ insB, ∀ p < prodL q.outShape, q.elem p = e →
        lo ≤ nd.post (nd.quantAt q s.fbw ins p) ∧ nd.post (nd.quantAt q s.fbw ins p) ≤ hi) ∧
      ∀ r, r = lo ∨ r = hi → r = 0 ∨ ∃ ins ∈ insB, ∃ p,
        r = rndMap (proxyRnd q.conf.strategy nd.covered) (at0 ((feedIns (nd.init s S d) ins).headD []) p * p2 m) * p2 (-m) := by
  obtain ⟨lo, hi, t⟩ := ht q hq e he
  obtain ⟨a1, a2⟩ := ha q hq e
  have hmn : (s.mn e).untopD 0 = lo := by rw [t.mn]; rfl
  have hmx : (s.mx e).unbotD 0 = hi := by rw [t.mx]; rfl
  rw [hmn, hmx]
  have reach : ∀ v, (nd.posOnly = true → 0 < v) → (∃ ins ∈ insB, ∃ p < prodL q.outShape, q.elem p = e ∧ nd.quantAt q s.fbw ins p = v) →
      v = 0 ∨ ∃ ins ∈ insB, ∃ p, v = rndMap (proxyRnd q.conf.strategy nd.covered)
        (at0 ((feedIns (nd.init s S d) ins).headD []) p * p2 (tfRound (s.fbw e))) * p2 (-tfRound (s.fbw e)) := by
    rintro v hpos ⟨ins, hins, p, hp, rfl, rfl⟩
    by_cases h0 : nd.quantAt q s.fbw ins p = 0
    · exact .inl h0
    · exact .inr ⟨ins, hins, p, (Node.feed_round hd hw ht hS hq (hr ins hins) hp h0 hpos).symm⟩
  have hrange : ∀ ins ∈ insB, ∀ p < prodL q.outShape, q.elem p = e → lo ≤ nd.quantAt q s.fbw ins p ∧ nd.quantAt q s.fbw ins p ≤ hi := by
    rintro ins hins p hp rfl
    have := hr ins hins q hq p hp
    rw [t.mn, t.mx] at this
    exact ⟨WithTop.coe_le_coe.mp this.1, WithBot.coe_le_coe.mp this.2⟩
  cases hpo : nd.posOnly with
  | false =>
    have hpost : ∀ v, nd.post v = v := by
      intro v
      cases nd with
      | linear L =>
        have : L.reluAct = false := hpo
        simp [Node.post, LinLayer.post, this]
      | _ => rfl
    refine ⟨lo, hi, tfRound (s.fbw e), tight_recorded t.fb t.le t.lb t.ub t.glo t.ghi, t.le, fun ins hins p hp he' => by
      rw [hpost]; exact hrange ins hins p hp he', ?_⟩
    rintro r (rfl | rfl)
    · exact reach _ (by simp [hpo]) (a1 _ t.mn)
    · exact reach _ (by simp [hpo]) (a2 _ t.mx)
  | true =>
    have hpost : ∀ v, nd.post v = max v 0 := by
      intro v
      cases nd with
      | linear L =>
        have : L.reluAct = true := hpo
        simp [Node.post, LinLayer.post, this, relu]
      | _ => simp [Node.posOnly] at hpo
    refine ⟨0, max hi 0, tfRound (s.fbw e), tight_recorded_pos t.fb t.ub t.ghi, le_max_right _ _, fun ins hins p hp he' => by
      rw [hpost]; exact ⟨le_max_right _ _, max_le_max (hrange ins hins p hp he').2 le_rfl⟩, ?_⟩
    rintro r (rfl | rfl)
    · exact .inl rfl
    · rcases le_or_gt hi 0 with h | h
      · exact .inl (max_eq_right h)
      · rw [max_eq_left h.le]
        exact reach _ (fun _ => h) (a2 _ t.mx)

/-! ### the network -/

/-- node `j` has an activation quantizer, and it is not the one of a softmax, sigmoid or tanh, whose range is adjusted -/
def Net.recorded (net : Net) (j : ℕ) : Prop :=
  ∃ nd ins, net[j]? = some (nd, ins) ∧ nd.site ≠ none ∧ nd.unadjusted = true

theorem build_recorded (aggressive : Bool) (D : List (ℕ → List ℚ)) (hD : D ≠ []) : ∀ {net : Net} {ss : List QState} {ds : List Desc}
    {b : Built} {E : (ℕ → List ℚ) → List (List ℚ)} {n : ℕ}, net.Wired n → net.Described ds → net.All Node.WF ss →
    net.All Node.AllTraced ss → (∀ xs ∈ D, (E xs).length = n) → (∀ xs ∈ D, b.Computes xs (E xs)) → net.AttainedU ss (D.map E) →
    (∀ xs ∈ D, net.InRange ss (E xs)) → b.graph.WF →
    ∀ j, net.recorded j →
      (net.build (proxySat aggressive) ss ds b).graph.RecordedAt (proxySat aggressive) D ((net.build (proxySat aggressive) ss ds b).pos.getD (n + j) 0)
  | [], _, _, _, _, _, _, _, _, _, _, _, _, _, _, j, hj => by
    obtain ⟨nd, ins, h, -⟩ := hj
    simp at h
  | (nd, ins) :: net, [], _, _, _, _, _, _, hw, _, _, _, _, _, _, _, _ => hw.elim
  | (nd, ins) :: net, s :: ss, [], _, _, _, _, hd, _, _, _, _, _, _, _, _, _ => hd.elim
  | (nd, ins) :: net, s :: ss, d :: ds, b, E, n, hwi, hd, hw, ht, hlen, hcomp, hatt, hin, hwf, j, hj => by
    have hS : proxySat aggressive ≠ .SAT_SYM := by unfold proxySat; split_ifs <;> simp
    obtain ⟨x0, hx0⟩ := List.exists_mem_of_ne_nil D hD
    obtain ⟨f, hf, -⟩ := nd.toProxy_ok ht.1 (proxySat aggressive)
    have hposlen : b.pos.length = n := by rw [(hcomp x0 hx0).len, hlen x0 hx0]
    have hposlt : ∀ i < n, b.pos.getD i 0 < b.graph.length := fun i hi => (hcomp x0 hx0).lt i (by rw [hlen x0 hx0]; exact hi)
    have hwf' : (b.add (nd.lays s (proxySat aggressive) d) ins).graph.WF := Built.add_wf hwf fun i hi => hposlt i (hwi.1 i hi)
    cases j with
    | succ j =>
      have := build_recorded aggressive D hD (ss := ss) (ds := ds) (b := b.add (nd.lays s (proxySat aggressive) d) ins)
        (E := fun xs => E xs ++ [nd.out s.fbw (gather (E xs) ins)]) (n := n + 1) hwi.2 hd.2 hw.2 ht.2
        (fun xs hxs => by simp [hlen xs hxs])
        (fun xs hxs => by
          rw [← Node.proxy_eq hw.1 ht.1 aggressive hf (hin xs hxs).1]
          exact (hcomp xs hxs).add hd.1 hf (by rw [hlen xs hxs]; exact hwi.1))
        (by have := hatt.2; rw [List.map_map] at this; exact this)
        (fun xs hxs => (hin xs hxs).2) hwf' j (by obtain ⟨a, c, h⟩ := hj; exact ⟨a, c, by simpa using h⟩)
      rw [show n + (j + 1) = n + 1 + j by omega]
      exact this
    | zero =>
      obtain ⟨nd', ins', h1, h2, h3⟩ := hj
      simp only [List.getElem?_cons_zero, Option.some.injEq, Prod.mk.injEq] at h1
      obtain ⟨rfl, rfl⟩ := h1
      obtain ⟨q, hq⟩ := Option.ne_none_iff_exists'.mp h2
      set S := proxySat aggressive with hSdef
      have hsplit := Node.lays_split hq s S d
      have hne := (nd.lays_eval hd.1 hf []).2
      obtain ⟨⟨h, hh⟩, ps, hps⟩ := build_extends (S := S) net ss ds (b.add (nd.lays s S d) ins)
      have hbuild : Net.build S ((nd, ins) :: net) (s :: ss) (d :: ds) b = Net.build S net ss ds (b.add (nd.lays s S d) ins) := rfl
      rw [hbuild, hh, hps]
      have hp' : ((b.add (nd.lays s S d) ins).pos ++ ps).getD (n + 0) 0 = b.graph.length + (nd.init s S d).length := by
        rw [getD_append_left' (by simp [Built.add, hposlen])]
        unfold Built.add
        simp only
        rw [getD_append_right' (by omega), hposlen, hsplit]
        simp
      rw [hp']
      have hinslt : ∀ i ∈ ins.map (b.pos.getD · 0), i < b.graph.length := by
        intro i hi
        obtain ⟨k, hk, rfl⟩ := List.mem_map.mp hi
        exact hposlt k (hwi.1 k hk)
      refine PGraph.RecordedAt.append hwf' (by unfold Built.add; simp [chain_length, hsplit]) ?_ h
      have hlast := fun xs => last_of_chain b.graph (nd.init s S d) (q.quantLay s S nd.posOnly nd.covered) (ins.map (b.pos.getD · 0))
        hinslt (by rw [← hsplit]; exact hne) xs
      have hgraph : (b.add (nd.lays s S d) ins).graph =
          b.graph ++ chain b.graph.length (nd.init s S d ++ [q.quantLay s S nd.posOnly nd.covered]) (ins.map (b.pos.getD · 0)) := by
        unfold Built.add; rw [hsplit]
      rw [hgraph]
      have hfeed : ∀ xs ∈ D, (ins.map (b.pos.getD · 0)).map (b.graph.value xs) = gather (E xs) ins := by
        intro xs hxs
        rw [List.map_map]
        apply List.map_congr_left
        intro i hi
        exact (hcomp xs hxs).val i (by rw [hlen xs hxs]; exact hwi.1 i hi)
      refine ⟨_, _, _, (hlast x0).1, rfl, hd.1.shape q hq, by simp, ?_, ?_⟩
      · change proxyRnd q.conf.strategy nd.covered = .TRN ∨ proxyRnd q.conf.strategy nd.covered = .RND
        unfold proxyRnd; split_ifs <;> simp
      · intro k hk
        obtain ⟨lo, hi, m, a1, a2, a4, a3⟩ := Node.elem_recorded (S := S) hd.1 hw.1 ht.1 hS hq (hatt.1 h3)
          (by
            intro i hi
            obtain ⟨env, henv, rfl⟩ := List.mem_map.mp hi
            obtain ⟨xs, hxs, rfl⟩ := List.mem_map.mp henv
            exact (hin xs hxs).1) hk
        have conv : ∀ r, r = lo ∨ r = hi → PGraph.Reached (b.graph ++ chain b.graph.length (nd.init s S d ++
            [q.quantLay s S nd.posOnly nd.covered]) (ins.map (b.pos.getD · 0))) D (b.graph.length + (nd.init s S d).length)
            (proxyRnd q.conf.strategy nd.covered) m r := by
          intro r hr
          rcases a3 r hr with h0 | ⟨i, hi, p, hp⟩
          · exact .inl h0
          · obtain ⟨env, henv, rfl⟩ := List.mem_map.mp hi
            obtain ⟨xs, hxs, rfl⟩ := List.mem_map.mp henv
            refine .inr ⟨xs, hxs, p, ?_⟩
            rw [(hlast xs).2, hfeed xs hxs]
            exact hp
        refine ⟨lo, hi, m, ?_, a2, conv lo (.inl rfl), conv hi (.inr rfl), fun xs hxs p hp hpe => ?_⟩
        · rw [getD_lt _ _ (by simpa using hk)]
          simpa using a1
        · have hc := (hcomp xs hxs).add hd.1 hf (ins := ins) (by rw [hlen xs hxs]; exact hwi.1)
          rw [Node.proxy_eq hw.1 ht.1 aggressive hf (hin xs hxs).1] at hc
          have hval := hc.val n (by simp [hlen xs hxs])
          rw [hgraph] at hval
          have hpn : (b.add (nd.lays s S d) ins).pos.getD n 0 = b.graph.length + (nd.init s S d).length := by
            unfold Built.add
            simp only
            rw [getD_append_right' (by omega), hposlen, hsplit]
            simp
          rw [hpn, getD_append_right' (by rw [hlen xs hxs]), hlen xs hxs, Nat.sub_self, List.getD_cons_zero] at hval
          rw [hval]
          have hout : nd.out s.fbw (gather (E xs) ins) =
              (List.range (prodL q.outShape)).map fun p => nd.post (nd.quantAt q s.fbw (gather (E xs) ins) p) := by
            unfold Node.out; rw [hq]
          rw [hout, at0_map_range _ hp]
          exact a4 _ (List.mem_map.mpr ⟨_, List.mem_map.mpr ⟨xs, hxs, rfl⟩, rfl⟩) p hp hpe

end HGQ
