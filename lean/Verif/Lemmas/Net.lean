import Verif.Model.Net
import Verif.Props.Layer

namespace HGQ
open Spec

/-! ### inference calls of a quantizer -/

theorem mapM_ok {α β : Type} (f : α → β) (g : α → Except String β) :
    ∀ (l : List α), (∀ a ∈ l, g a = .ok (f a)) → l.mapM g = .ok (l.map f)
  | [], _ => rfl
  | a :: l, h => by
    rw [List.mapM_cons, h a (by simp), mapM_ok f g l (fun b hb => h b (by simp [hb]))]
    rfl

/-- a sample quantized at inference -/
def qSample (c : QConf) (elem : ℕ → ℕ) (fbw : ℕ → ℚ) (z : List ℚ) : List ℚ :=
  z.zipIdx.map fun vp => evalQ c.strategy (fbw (elem vp.2)) vp.1

theorem map_zipIdx_fst {α β : Type} (f : α → β) : ∀ (l : List α) (k : ℕ), (l.zipIdx k).map (fun x => f x.1) = l.map f
  | [], _ => rfl
  | a :: l, k => by simp [List.zipIdx_cons, map_zipIdx_fst f l]

theorem forwardBatch_eq (c : QConf) (elem : ℕ → ℕ) (fbw : ℕ → ℚ) (noise : ℕ → ℕ → ℚ) (xs : List (List ℚ)) :
    c.forwardBatch elem fbw noise false xs = .ok (xs.map (qSample c elem fbw)) := by
  unfold QConf.forwardBatch
  rw [mapM_ok (fun sb => qSample c elem fbw sb.1)]
  · rw [map_zipIdx_fst]
  · intro sb _
    exact mapM_ok _ _ _ fun vp _ => C11_inference_total c _ _ _

theorem call_eq (c : QConf) (elem : ℕ → ℕ) (s : QState) (noise : ℕ → ℕ → ℚ) (record : Bool) (xs : List (List ℚ))
    (hclip : ∀ e, c.clip (s.fbw e) = s.fbw e) :
    c.call elem s noise false record xs =
      .ok (if record then s.record elem (xs.map (qSample c elem s.fbw)) else s, xs.map (qSample c elem s.fbw)) := by
  unfold QConf.call
  have : (fun e => c.clip (s.fbw e)) = s.fbw := funext hclip
  rw [this]
  simp only [forwardBatch_eq, bind, Except.bind]
  cases record <;> rfl

theorem qSample_range (c : QConf) (elem : ℕ → ℕ) (fbw : ℕ → ℚ) (n : ℕ) (g : ℕ → ℚ) :
    qSample c elem fbw ((List.range n).map g) = (List.range n).map fun p => evalQ c.strategy (fbw (elem p)) (g p) := by
  unfold qSample
  apply List.ext_getElem
  · simp
  · intro i h1 h2
    simp

/-! ### recording -/

/-- recorded extrema are multiples of the resolution -/
def GridState (s : QState) : Prop :=
  ∀ e, (∀ v : ℚ, s.mn e = (v : WithTop ℚ) → ∃ n : ℤ, v = n * p2 (-tfRound (s.fbw e))) ∧
    (∀ v : ℚ, s.mx e = (v : WithBot ℚ) → ∃ n : ℤ, v = n * p2 (-tfRound (s.fbw e)))

theorem gridState_reset (s : QState) : GridState s.reset :=
  fun e => ⟨fun v h => by simp [QState.reset] at h, fun v h => by simp [QState.reset] at h⟩

theorem gridState_record {c : QConf} {elem : ℕ → ℕ} {s : QState} (h : GridState s) (xs : List (List ℚ)) :
    GridState (s.record elem (xs.map (qSample c elem s.fbw))) := by
  have key : ∀ e v, (e, v) ∈ batchPairs elem (xs.map (qSample c elem s.fbw)) →
      ∃ n : ℤ, v = n * p2 (-tfRound (s.fbw e)) := by
    intro e v hv
    obtain ⟨y, hy, p, h1, h2⟩ := mem_batchPairs.mp hv
    obtain ⟨x, hx, rfl⟩ := List.mem_map.mp hy
    unfold qSample at h1
    rw [List.getElem?_map, Option.map_eq_some_iff] at h1
    obtain ⟨⟨w, q⟩, hq, h1⟩ := h1
    have : q = p := by
      have := List.getElem?_zipIdx (l := x) (i := 0) (j := p)
      rw [this] at hq
      obtain ⟨a, _, h3⟩ := Option.map_eq_some_iff.mp hq
      simp at h3; exact h3.2.symm
    subst this
    rw [← h1, ← h2]
    exact evalQ_grid _ _ _
  intro e
  constructor
  · intro v hv
    change min (reduceMin e _) (s.mn e) = _ at hv
    rcases min_choice (reduceMin e (batchPairs elem (xs.map (qSample c elem s.fbw)))) (s.mn e) with h' | h'
    · rw [h'] at hv
      exact key e v (reduceMin_mem hv)
    · rw [h'] at hv; exact (h e).1 v hv
  · intro v hv
    change max (reduceMax e _) (s.mx e) = _ at hv
    rcases max_choice (reduceMax e (batchPairs elem (xs.map (qSample c elem s.fbw)))) (s.mx e) with h' | h'
    · rw [h'] at hv
      exact key e v (reduceMax_mem hv)
    · rw [h'] at hv; exact (h e).2 v hv

/-- `s'` has the bitwidths of `s` and at least its ranges -/
structure Ext (s s' : QState) : Prop where
  fbw : s'.fbw = s.fbw
  mn : ∀ e, s'.mn e ≤ s.mn e
  mx : ∀ e, s.mx e ≤ s'.mx e

theorem Ext.refl (s : QState) : Ext s s := ⟨rfl, fun _ => le_rfl, fun _ => le_rfl⟩

theorem Ext.trans {a b c : QState} (h : Ext a b) (h' : Ext b c) : Ext a c :=
  ⟨by rw [h'.fbw, h.fbw], fun e => le_trans (h'.mn e) (h.mn e), fun e => le_trans (h.mx e) (h'.mx e)⟩

theorem ext_record (s : QState) (elem : ℕ → ℕ) (xs : List (List ℚ)) : Ext s (s.record elem xs) :=
  ⟨rfl, fun _ => min_le_right _ _, fun _ => le_max_right _ _⟩

/-! ### nodes -/

/-- value at position `p` after the quantizer, for bitwidths `fbw` -/
def Node.quantAt (nd : Node) (q : QSite) (fbw : ℕ → ℚ) (ins : List (List ℚ)) (p : ℕ) : ℚ :=
  evalQ q.conf.strategy (fbw (q.elem p)) (nd.preAt fbw ins p)

/-- output of a node at inference -/
def Node.out (nd : Node) (fbw : ℕ → ℚ) (ins : List (List ℚ)) : List ℚ :=
  match nd.site with
  | none => nd.pre fbw ins
  | some q => (List.range (prodL q.outShape)).map fun p => nd.post (nd.quantAt q fbw ins p)

/-- bitwidths inside the clip range -/
def Node.Clipped (nd : Node) (s : QState) : Prop :=
  ∀ q, nd.site = some q → ∀ e, q.conf.clip (s.fbw e) = s.fbw e

/-- state after a call -/
def Node.after (nd : Node) (s : QState) (record : Bool) (insB : List (List (List ℚ))) : QState :=
  match nd.site with
  | none => s
  | some q => if record then s.record q.elem ((insB.map (nd.pre s.fbw)).map (qSample q.conf q.elem s.fbw)) else s

theorem Node.call_eq (nd : Node) (s : QState) (record : Bool) (insB : List (List (List ℚ))) (hc : nd.Clipped s) :
    nd.call s record insB = .ok (nd.after s record insB, insB.map (nd.out s.fbw)) := by
  unfold Node.call Node.after
  cases hs : nd.site with
  | none =>
    simp only
    congr 2
    apply List.map_congr_left
    intro ins _
    unfold Node.out; rw [hs]
  | some q =>
    simp only
    rw [HGQ.call_eq _ _ _ _ _ _ (hc q hs)]
    simp only [bind, Except.bind, pure, Except.pure]
    congr 2
    rw [List.map_map, List.map_map]
    apply List.map_congr_left
    intro ins _
    simp only [Function.comp]
    have hp : nd.pre s.fbw ins = (List.range (prodL q.outShape)).map (nd.preAt s.fbw ins) := by
      unfold Node.pre; rw [hs]
    rw [hp, qSample_range, List.map_map]
    unfold Node.out; rw [hs]
    rfl

/-- all quantized values of the node on these inputs are in the recorded ranges -/
def Node.InRange (nd : Node) (s : QState) (ins : List (List ℚ)) : Prop :=
  ∀ q, nd.site = some q → ∀ p < prodL q.outShape,
    s.mn (q.elem p) ≤ (nd.quantAt q s.fbw ins p : WithTop ℚ) ∧ (nd.quantAt q s.fbw ins p : WithBot ℚ) ≤ s.mx (q.elem p)

theorem Node.InRange.ext {nd : Node} {s s' : QState} {ins : List (List ℚ)} (h : nd.InRange s ins) (he : Ext s s') :
    nd.InRange s' ins := by
  intro q hq p hp
  rw [he.fbw]
  have := h q hq p hp
  exact ⟨le_trans (he.mn _) this.1, le_trans this.2 (he.mx _)⟩

theorem Node.after_ext (nd : Node) (s : QState) (record : Bool) (insB : List (List (List ℚ))) :
    Ext s (nd.after s record insB) := by
  unfold Node.after
  cases nd.site with
  | none => exact Ext.refl s
  | some q =>
    cases record
    · exact Ext.refl s
    · exact ext_record _ _ _

theorem Node.after_inRange (nd : Node) (s : QState) (insB : List (List (List ℚ))) {ins : List (List ℚ)}
    (h : ins ∈ insB) : nd.InRange (nd.after s true insB) ins := by
  intro q hq p hp
  rw [(nd.after_ext s true insB).fbw]
  have hmem : (q.elem p, nd.quantAt q s.fbw ins p) ∈
      batchPairs q.elem ((insB.map (nd.pre s.fbw)).map (qSample q.conf q.elem s.fbw)) := by
    apply mem_batchPairs.mpr
    refine ⟨_, List.mem_map.mpr ⟨_, List.mem_map.mpr ⟨ins, h, rfl⟩, rfl⟩, p, ?_, rfl⟩
    have hpz : nd.pre s.fbw ins = (List.range (prodL q.outShape)).map (nd.preAt s.fbw ins) := by
      unfold Node.pre; rw [hq]
    rw [hpz, qSample_range]
    rw [List.getElem?_map, List.getElem?_range hp]
    rfl
  have e : nd.after s true insB = s.record q.elem ((insB.map (nd.pre s.fbw)).map (qSample q.conf q.elem s.fbw)) := by
    unfold Node.after; rw [hq]; rfl
  rw [e]
  exact ⟨le_trans (min_le_left _ _) (reduceMin_le hmem), le_trans (le_reduceMax hmem) (le_max_left _ _)⟩

theorem Node.after_grid (nd : Node) (s : QState) (record : Bool) (insB : List (List (List ℚ))) (h : GridState s) :
    GridState (nd.after s record insB) := by
  unfold Node.after
  cases nd.site with
  | none => exact h
  | some q =>
    cases record
    · exact h
    · exact gridState_record h _

/-! ### networks -/

/-- all tensors computed at inference for one sample, given the bitwidths of every node -/
def Net.evalEnv : Net → List (ℕ → ℚ) → List (List ℚ) → List (List ℚ)
  | (nd, ins) :: rest, f :: fs, env => Net.evalEnv rest fs (env ++ [nd.out f (gather env ins)])
  | _, _, env => env

/-- on this sample all quantized values are in the recorded ranges -/
def Net.InRange : Net → List QState → List (List ℚ) → Prop
  | [], _, _ => True
  | (nd, ins) :: rest, s :: ss, env =>
    nd.InRange s (gather env ins) ∧ Net.InRange rest ss (env ++ [nd.out s.fbw (gather env ins)])
  | _ :: _, [], _ => False

/-- a predicate on (node, state) holds for all nodes, and there is a state for every node -/
def Net.All (P : Node → QState → Prop) : Net → List QState → Prop
  | [], [] => True
  | (nd, _) :: rest, s :: ss => P nd s ∧ Net.All P rest ss
  | _, _ => False

def ExtL : List QState → List QState → Prop := List.Forall₂ Ext

theorem ExtL.refl (ss : List QState) : ExtL ss ss := List.forall₂_same.mpr fun s _ => Ext.refl s

theorem ExtL.trans : ∀ {a b c : List QState}, ExtL a b → ExtL b c → ExtL a c
  | [], [], [], _, _ => .nil
  | _ :: _, _ :: _, _ :: _, .cons h t, .cons h' t' => .cons (h.trans h') (ExtL.trans t t')

theorem ExtL.fbw : ∀ {a b : List QState}, ExtL a b → b.map QState.fbw = a.map QState.fbw
  | [], [], _ => rfl
  | _ :: _, _ :: _, .cons h t => by simp [h.fbw, ExtL.fbw t]

theorem Net.InRange.ext : ∀ {net : Net} {ss ss' : List QState} {env : List (List ℚ)}, net.InRange ss env → ExtL ss ss' →
    net.InRange ss' env
  | [], _, _, _, _, _ => trivial
  | (nd, ins) :: rest, s :: ss, s' :: ss', env, h, .cons he hes => by
    refine ⟨h.1.ext he, ?_⟩
    have := Net.InRange.ext h.2 hes
    rwa [← he.fbw] at this
  | _ :: _, [], _, _, h, _ => h.elim

theorem Net.All.ext {P : Node → QState → Prop} (hP : ∀ nd s s', P nd s → Ext s s' → P nd s') :
    ∀ {net : Net} {ss ss' : List QState}, net.All P ss → ExtL ss ss' → net.All P ss'
  | [], [], [], _, _ => trivial
  | (_, _) :: _, _ :: _, _ :: _, h, .cons he hes => ⟨hP _ _ _ h.1 he, Net.All.ext hP h.2 hes⟩

/-- one batch through the network -/
theorem Net.call_spec (record : Bool) : ∀ (net : Net) (ss : List QState) (envs : List (List (List ℚ))),
    net.All Node.Clipped ss →
    ∃ ss', net.call record ss envs = .ok (ss', envs.map (net.evalEnv (ss.map QState.fbw))) ∧ ExtL ss ss' ∧
      (record = false → ss' = ss) ∧
      (record = true → ∀ env ∈ envs, net.InRange ss' env) ∧
      (net.All (fun _ s => GridState s) ss → net.All (fun _ s => GridState s) ss')
  | [], [], envs, _ => by
    refine ⟨[], ?_, .nil, fun _ => rfl, fun _ _ _ => trivial, fun h => h⟩
    simp [Net.call, Net.evalEnv]
  | (nd, ins) :: rest, s :: ss, envs, h => by
    obtain ⟨ss', h1, h2, h3, h4, h5⟩ := Net.call_spec record rest ss
      (List.zipWith (fun env o => env ++ [o]) envs ((envs.map (gather · ins)).map (nd.out s.fbw))) h.2
    refine ⟨nd.after s record (envs.map (gather · ins)) :: ss', ?_, .cons (nd.after_ext _ _ _) h2, ?_, ?_, ?_⟩
    · unfold Net.call
      rw [Node.call_eq _ _ _ _ h.1]
      simp only [bind, Except.bind, h1, pure, Except.pure]
      congr 2
      have hz : List.zipWith (fun (env : List (List ℚ)) o => env ++ [o]) envs
          ((envs.map (gather · ins)).map (nd.out s.fbw))
          = envs.map fun env => env ++ [nd.out s.fbw (gather env ins)] := by
        rw [List.map_map, List.zipWith_map_right]
        clear h1 h2 h3 h4 h5
        induction envs with
        | nil => rfl
        | cons a l ih => simp
      rw [hz, List.map_map]
      rfl
    · intro hr
      rw [h3 hr]
      congr 1
      unfold Node.after
      cases nd.site <;> simp [hr]
    · intro hr env henv
      refine ⟨?_, ?_⟩
      · rw [hr]; exact nd.after_inRange s _ (List.mem_map.mpr ⟨env, henv, rfl⟩)
      · rw [(nd.after_ext s record _).fbw]
        apply h4 hr
        have hz : List.zipWith (fun (env : List (List ℚ)) o => env ++ [o]) envs
            ((envs.map (gather · ins)).map (nd.out s.fbw))
            = envs.map fun env => env ++ [nd.out s.fbw (gather env ins)] := by
          rw [List.map_map, List.zipWith_map_right]
          clear h1 h2 h3 h4 h5 henv
          induction envs with
          | nil => rfl
          | cons a l ih => simp
        rw [hz]
        exact List.mem_map.mpr ⟨env, henv, rfl⟩
    · intro hg
      exact ⟨nd.after_grid s record _ hg.1, h5 hg.2⟩
  | [], _ :: _, _, h => h.elim
  | _ :: _, [], _, h => h.elim

theorem clipped_ext (nd : Node) (s s' : QState) (h : nd.Clipped s) (he : Ext s s') : nd.Clipped s' := by
  intro q hq e
  rw [he.fbw]; exact h q hq e

/-- the batch loop -/
theorem Net.callBatches_spec (record : Bool) (net : Net) : ∀ (bs : List (List (List (List ℚ)))) (ss : List QState),
    net.All Node.Clipped ss →
    ∃ ss', net.callBatches record ss bs = .ok (ss', bs.flatten.map (net.evalEnv (ss.map QState.fbw))) ∧ ExtL ss ss' ∧
      (record = false → ss' = ss) ∧
      (record = true → ∀ env ∈ bs.flatten, net.InRange ss' env) ∧
      (net.All (fun _ s => GridState s) ss → net.All (fun _ s => GridState s) ss')
  | [], ss, h => ⟨ss, by simp [Net.callBatches], ExtL.refl ss, fun _ => rfl, by simp, fun h => h⟩
  | b :: bs, ss, h => by
    obtain ⟨s1, h1, h2, h3, h4, h5⟩ := net.call_spec record ss b h
    obtain ⟨s2, g1, g2, g3, g4, g5⟩ := Net.callBatches_spec record net bs s1 (Net.All.ext clipped_ext h h2)
    refine ⟨s2, ?_, h2.trans g2, ?_, ?_, fun hg => g5 (h5 hg)⟩
    · unfold Net.callBatches
      simp only [h1, g1, bind, Except.bind, pure, Except.pure]
      rw [h2.fbw]
      simp
    · intro hr; rw [g3 hr, h3 hr]
    · intro hr env henv
      rw [List.flatten_cons, List.mem_append] at henv
      rcases henv with henv | henv
      · exact (h4 hr env henv).ext g2
      · exact g4 hr env henv

/-! ### batches -/

theorem chunks_flatten {α : Type} (bsz : ℕ) (hb : 0 < bsz) (l : List α) : (chunks bsz l).flatten = l := by
  have key : ∀ n, ((List.range n).map fun i => (l.drop (i * bsz)).take bsz).flatten = l.take (n * bsz) := by
    intro n
    induction n with
    | zero => simp
    | succ n ih =>
      rw [List.range_succ, List.map_append, List.flatten_append, ih]
      simp only [List.map_cons, List.map_nil, List.flatten_cons, List.flatten_nil, List.append_nil]
      rw [Nat.add_mul, one_mul, List.take_add]
  unfold chunks
  rw [key]
  apply List.take_of_length_le
  have h1 := Nat.div_add_mod (l.length + bsz - 1) bsz
  have h2 := Nat.mod_lt (l.length + bsz - 1) hb
  have h3 : (l.length + bsz - 1) / bsz * bsz = bsz * ((l.length + bsz - 1) / bsz) := Nat.mul_comm _ _
  omega

/-! ### every quantizer element is used -/

theorem elemOf_surj {os qs : List ℕ} (hc : Compat os qs) {e : ℕ} (he : e < prodL qs) :
    ∃ p < prodL os, elemOf os qs p = e := by
  have hv := valid_unravel he
  have hv' : ∀ {os qs idx : List ℕ}, Compat os qs → ValidIdx qs idx → ValidIdx os idx := by
    intro os
    induction os with
    | nil => intro qs idx hc hv; cases qs with
      | nil => exact hv
      | cons _ _ => exact hc.elim
    | cons o os ih =>
      intro qs idx hc hv
      cases qs with
      | nil => exact hc.elim
      | cons q qs =>
        cases idx with
        | nil => exact hv.elim
        | cons i is =>
          refine ⟨?_, ih hc.2.2 hv.2⟩
          have h1 := hv.1; have h2 := hc.1
          rcases hc.2.1 with h | h <;> omega
  have hvo := hv' hc hv
  refine ⟨ravel os (unravel qs e), ravel_lt hvo, ?_⟩
  unfold elemOf
  rw [unravel_ravel hvo, bcast_self hv, ravel_unravel he]

end HGQ
