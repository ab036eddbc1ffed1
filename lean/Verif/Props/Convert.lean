import Verif.Lemmas.ConvertNames
import Verif.Model.ProxyXf

/-!
C43-C46, C69, C70: conversion of (nested) models.
-/

namespace HGQ.Convert

variable {α V : Type}

theorem find_entry {nodes : NodeTab α} {n : ℕ} {l : Lay α} {args : List (ℕ × ℕ)} (h : nodes.find n = some (l, args)) :
    (n, l, args) ∈ nodes := by
  unfold NodeTab.find at h
  rw [Option.map_eq_some_iff] at h
  obtain ⟨e, h1, h2⟩ := h
  have h3 := List.find?_some h1
  simp only [beq_iff_eq] at h3
  have h4 := List.mem_of_find?_eq_some h1
  rw [← h3, ← h2]
  exact h4

theorem convert_ok_iff {ar : α → ℕ} {xf : Xf α} {fuel : ℕ} {inputs : List ℕ} {nodes : NodeTab α} {outputs : List (ℕ × ℕ)}
    {p : Prog α} {ren : List (ℕ × String)} : convert ar xf fuel inputs nodes outputs = .ok (p, ren) ↔
      ∃ s, applyLayer ar xf fuel true [] (.model inputs nodes outputs) ((List.range inputs.length).map Ref.inp) ⟨[], [], []⟩ =
        .ok (p.outs, s) ∧ s.calls = p.calls ∧ s.renamed = ren := by
  unfold convert
  cases h : applyLayer ar xf fuel true [] (.model inputs nodes outputs) ((List.range inputs.length).map Ref.inp) ⟨[], [], []⟩ with
  | error e => simp [bind, Except.bind]
  | ok q =>
    obtain ⟨o, s⟩ := q
    obtain ⟨cs, os⟩ := p
    simp only [bind, Except.bind, pure, Except.pure, Except.ok.injEq, Prod.mk.injEq, Prog.mk.injEq]
    constructor
    · rintro ⟨⟨rfl, rfl⟩, rfl⟩
      exact ⟨s, ⟨rfl, rfl⟩, rfl, rfl⟩
    · rintro ⟨s', ⟨rfl, rfl⟩, rfl, rfl⟩
      exact ⟨⟨rfl, rfl⟩, rfl⟩

theorem range_inp (xs : List V) : ((List.range xs.length).map Ref.inp).mapM (deref xs []) = some xs := by
  have key : ∀ k, k ≤ xs.length → ((List.range k).map Ref.inp).mapM (deref xs []) = some (xs.take k) := by
    intro k
    induction k with
    | zero => intro _; simp
    | succ k ih =>
      intro hk
      rw [List.range_succ, List.map_append, List.take_add_one]
      refine mapM_append xs (ih (by omega)) ?_
      simp [deref]
      rw [List.getElem?_eq_getElem (by omega)]
      rfl
  simpa using key xs.length le_rfl

theorem convert_large (ar : α → ℕ) (sem : α → List V → Option (List V)) (xf : Xf α)
    (hlen : ∀ op vs ys, sem op vs = some ys → ys.length = ar op) (hx : XfOK ar sem xf) (inputs : List ℕ)
    (nodes : NodeTab α) (outputs : List (ℕ × ℕ)) (hg : GraphOK inputs nodes outputs) (ho : ∀ o ∈ outputs, o.2 = 0)
    (h0 : ∀ n l args, nodes.find n = some (l, args) → ∀ a ∈ args, a.2 = 0)
    (hso : ∀ n l args, nodes.find n = some (l, args) → SingleOut ar l) (xs ys : List V)
    (hev : Eval sem (.model inputs nodes outputs) xs ys) :
    ∃ N, ∀ fuel, N ≤ fuel → ∃ p ren, convert ar xf fuel inputs nodes outputs = .ok (p, ren) ∧ p.eval sem xs = some ys := by
  obtain ⟨rank, hr, hrd, hrn⟩ := hx.rank
  have hal : ∀ l : Lay α, SingleOut ar l → AllLeaves (fun i nm o => rank i nm o < 1025) l := by
    intro l h
    induction h with
    | leaf id name op _ => exact .leaf _ _ _ (by have := hr id name op; omega)
    | model i n o _ _ _ _ _ ih => exact .model _ _ _ ih
  cases hev with
  | model _ _ _ _ _ v w hin hargs hnode hout =>
    have hinl : inputs.length = xs.length := by simpa using congrArg List.length hin
    obtain ⟨N, hN⟩ := model_ok sem xs ar xf hlen inputs nodes outputs hg ho h0 hso xs ys v w hin hargs hnode hout
      (fun n l args h1 h2 h3 => apply_ok sem xs ar xf hlen hx rank hr hrd hrn 1025 l (hal l (hso n l args h3))
        (hso n l args h3) _ _ (hnode n l args h1 h2 h3))
    refine ⟨N, fun fuel hf => ?_⟩
    obtain ⟨outs, s', E', k1, k2, -, k4⟩ := hN fuel hf true [] ((List.range inputs.length).map Ref.inp) ⟨[], [], []⟩ []
      (by simp [evalCalls]) (by rw [hinl]; exact range_inp xs)
    refine ⟨⟨s'.calls, outs⟩, s'.renamed, convert_ok_iff.mpr ⟨s', k1, rfl, rfl⟩, ?_⟩
    unfold Prog.eval
    simp only [k2, Option.bind_eq_bind, Option.bind_some]
    exact k4

/-- **C43.** A converted model computes the same function as the (nested) source model, for every layer transformer that
keeps the function of each layer: whatever depth of recursion was needed, on every input on which the source model gives
`ys`, the converted model gives `ys`. Every layer and nested model has one output; the model itself can have several. -/
theorem C43_convert_same_function (ar : α → ℕ) (sem : α → List V → Option (List V)) (xf : Xf α)
    (hlen : ∀ op vs ys, sem op vs = some ys → ys.length = ar op) (hx : XfOK ar sem xf) (inputs : List ℕ)
    (nodes : NodeTab α) (outputs : List (ℕ × ℕ)) (hg : GraphOK inputs nodes outputs) (ho : ∀ o ∈ outputs, o.2 = 0)
    (h0 : ∀ n l args, nodes.find n = some (l, args) → ∀ a ∈ args, a.2 = 0)
    (hso : ∀ n l args, nodes.find n = some (l, args) → SingleOut ar l) (fuel : ℕ) (p : Prog α) (ren : List (ℕ × String))
    (hp : convert ar xf fuel inputs nodes outputs = .ok (p, ren)) (xs ys : List V)
    (hev : Eval sem (.model inputs nodes outputs) xs ys) : p.eval sem xs = some ys := by
  obtain ⟨N, hN⟩ := convert_large ar sem xf hlen hx inputs nodes outputs hg ho h0 hso xs ys hev
  obtain ⟨p', ren', h1, h2⟩ := hN (max N fuel) (le_max_left _ _)
  obtain ⟨s, hs, hc, -⟩ := convert_ok_iff.mp hp
  obtain ⟨s', hs', hc', -⟩ := convert_ok_iff.mp h1
  have := applyLayer_mono ar xf fuel (max N fuel) (le_max_right _ _) _ _ _ _ _ _ hs
  rw [this] at hs'
  simp only [Except.ok.injEq, Prod.mk.injEq] at hs'
  obtain ⟨hs1, hs2⟩ := hs'
  have hpp : p = p' := by
    obtain ⟨c, o⟩ := p
    obtain ⟨c', o'⟩ := p'
    simp only at hc hc' hs1
    rw [← hc, ← hc', hs1, hs2]
  rw [hpp]; exact h2

/-- **C43**, conversion succeeds: if the source model can be evaluated on some input, conversion returns a model (given
enough recursion depth). -/
theorem C43_convert_succeeds (ar : α → ℕ) (sem : α → List V → Option (List V)) (xf : Xf α)
    (hlen : ∀ op vs ys, sem op vs = some ys → ys.length = ar op) (hx : XfOK ar sem xf) (inputs : List ℕ)
    (nodes : NodeTab α) (outputs : List (ℕ × ℕ)) (hg : GraphOK inputs nodes outputs) (ho : ∀ o ∈ outputs, o.2 = 0)
    (h0 : ∀ n l args, nodes.find n = some (l, args) → ∀ a ∈ args, a.2 = 0)
    (hso : ∀ n l args, nodes.find n = some (l, args) → SingleOut ar l) (xs ys : List V)
    (hev : Eval sem (.model inputs nodes outputs) xs ys) :
    ∃ N, ∀ fuel, N ≤ fuel → ∃ p ren, convert ar xf fuel inputs nodes outputs = .ok (p, ren) := by
  obtain ⟨N, hN⟩ := convert_large ar sem xf hlen hx inputs nodes outputs hg ho h0 hso xs ys hev
  exact ⟨N, fun fuel hf => by obtain ⟨p, ren, h, -⟩ := hN fuel hf; exact ⟨p, ren, h⟩⟩

/-- the identity transformer, `lambda x: x` -/
def idXf : Xf α := fun _ _ _ => .ok .same

theorem idXf_ok (ar : α → ℕ) (sem : α → List V → Option (List V)) : XfOK ar sem (idXf (α := α)) where
  total := fun _ _ _ _ _ _ => ⟨_, rfl⟩
  drop := fun _ _ _ h => by cases h
  new := fun _ _ _ _ h => by cases h
  rank := ⟨fun _ _ _ => 0, by simp, (fun _ _ _ h => by cases h), (fun _ _ _ _ h => by cases h)⟩

/-- **C43**, pure flattening: `convert_model(model)` computes the same function as `model`. -/
theorem C43_flatten (ar : α → ℕ) (sem : α → List V → Option (List V))
    (hlen : ∀ op vs ys, sem op vs = some ys → ys.length = ar op) (inputs : List ℕ)
    (nodes : NodeTab α) (outputs : List (ℕ × ℕ)) (hg : GraphOK inputs nodes outputs) (ho : ∀ o ∈ outputs, o.2 = 0)
    (h0 : ∀ n l args, nodes.find n = some (l, args) → ∀ a ∈ args, a.2 = 0)
    (hso : ∀ n l args, nodes.find n = some (l, args) → SingleOut ar l) (fuel : ℕ) (p : Prog α) (ren : List (ℕ × String))
    (hp : convert ar idXf fuel inputs nodes outputs = .ok (p, ren)) (xs ys : List V)
    (hev : Eval sem (.model inputs nodes outputs) xs ys) : p.eval sem xs = some ys :=
  C43_convert_same_function ar sem idXf hlen (idXf_ok ar sem) inputs nodes outputs hg ho h0 hso fuel p ren hp xs ys hev

/-! a non-trivial case: `x ↦ (x+1) + (x+1+2)`, the addition of 2 done by a nested model, one unused node -/

namespace Ex

/-- operations on ℕ: `x + c`, or the sum of two tensors -/
inductive Op
  | add (c : ℕ)
  | sum
  deriving DecidableEq

def sem : Op → List ℕ → Option (List ℕ)
  | .add c, [x] => some [x + c]
  | .sum, [x, y] => some [x + y]
  | _, _ => none

def inner : Lay Op := .model [0] [(1, .leaf 5 "d" (.add 2), [(0, 0)])] [(1, 0)]

def nodes : NodeTab Op := [(1, .leaf 1 "d" (.add 1), [(0, 0)]), (2, inner, [(1, 0)]),
  (3, .leaf 3 "s" .sum, [(1, 0), (2, 0)]), (4, .leaf 4 "unused" (.add 9), [(0, 0)])]

theorem sem_len (op : Op) (vs ys : List ℕ) (h : sem op vs = some ys) : ys.length = 1 := by
  unfold sem at h
  split at h
  · cases h; rfl
  · cases h; rfl
  · cases h

theorem find_inner {n l args} (h : NodeTab.find (α := Op) [(1, .leaf 5 "d" (.add 2), [(0, 0)])] n = some (l, args)) :
    n = 1 ∧ l = .leaf 5 "d" (.add 2) ∧ args = [(0, 0)] := by
  obtain rfl : n = 1 := by
    have := find_entry h
    simp at this
    exact this.1
  cases h; exact ⟨rfl, rfl, rfl⟩

theorem find_nodes {n l args} (h : nodes.find n = some (l, args)) :
    (n = 1 ∧ l = .leaf 1 "d" (.add 1) ∧ args = [(0, 0)]) ∨ (n = 2 ∧ l = inner ∧ args = [(1, 0)]) ∨
    (n = 3 ∧ l = .leaf 3 "s" .sum ∧ args = [(1, 0), (2, 0)]) ∨ (n = 4 ∧ l = .leaf 4 "unused" (.add 9) ∧ args = [(0, 0)]) := by
  have := find_entry h
  simpa [nodes] using this

theorem inner_single : SingleOut (fun _ => 1) inner := by
  refine .model _ _ _ rfl ⟨?_, ⟨id, ?_⟩⟩ (by simp) ?_ ?_
  · intro n hn
    induction hn with
    | output o ho => simp at ho; subst ho; right; rfl
    | parent n l args a _ hf ha ih =>
      obtain ⟨-, -, rfl⟩ := find_inner hf
      simp at ha; subst ha; left; simp
  · intro n l args hf a ha
    obtain ⟨rfl, -, rfl⟩ := find_inner hf
    simp at ha; subst ha; decide
  · intro n l args hf a ha
    obtain ⟨-, -, rfl⟩ := find_inner hf
    simp at ha; subst ha; rfl
  · intro n l args hf
    obtain ⟨-, rfl, -⟩ := find_inner hf
    exact .leaf _ _ _ rfl

theorem graph_ok : GraphOK [0] nodes [(3, 0)] := by
  refine ⟨?_, ⟨id, ?_⟩⟩
  · intro n hn
    induction hn with
    | output o ho => simp at ho; subst ho; right; rfl
    | parent n l args a _ hf ha ih =>
      rcases find_nodes hf with ⟨-, -, rfl⟩ | ⟨-, -, rfl⟩ | ⟨-, -, rfl⟩ | ⟨-, -, rfl⟩
      · simp at ha; subst ha; left; simp
      · simp at ha; subst ha; right; rfl
      · simp at ha; rcases ha with rfl | rfl <;> (right; rfl)
      · simp at ha; subst ha; left; simp
  · intro n l args hf a ha
    rcases find_nodes hf with ⟨rfl, -, rfl⟩ | ⟨rfl, -, rfl⟩ | ⟨rfl, -, rfl⟩ | ⟨rfl, -, rfl⟩
    · simp at ha; subst ha; decide
    · simp at ha; subst ha; decide
    · simp at ha; rcases ha with rfl | rfl <;> decide
    · simp at ha; subst ha; decide

theorem nodes_idx (n : ℕ) (l : Lay Op) (args : List (ℕ × ℕ)) (hf : nodes.find n = some (l, args)) : ∀ a ∈ args, a.2 = 0 := by
  intro a ha
  rcases find_nodes hf with ⟨rfl, -, rfl⟩ | ⟨rfl, -, rfl⟩ | ⟨rfl, -, rfl⟩ | ⟨rfl, -, rfl⟩
  · simp at ha; subst ha; rfl
  · simp at ha; subst ha; rfl
  · simp at ha; rcases ha with rfl | rfl <;> rfl
  · simp at ha; subst ha; rfl

theorem nodes_single (n : ℕ) (l : Lay Op) (args : List (ℕ × ℕ)) (hf : nodes.find n = some (l, args)) :
    SingleOut (fun _ => 1) l := by
  rcases find_nodes hf with ⟨-, rfl, -⟩ | ⟨-, rfl, -⟩ | ⟨-, rfl, -⟩ | ⟨-, rfl, -⟩
  · exact .leaf _ _ _ rfl
  · exact inner_single
  · exact .leaf _ _ _ rfl
  · exact .leaf _ _ _ rfl

theorem inner_eval (x : ℕ) : Eval sem inner [x] [x + 2] := by
  refine .model _ _ _ _ _ (fun n => if n = 0 then [x] else [x + 2]) (fun _ => [x]) rfl ?_ ?_ rfl
  · intro n l args _ _ hf
    obtain ⟨rfl, rfl, rfl⟩ := find_inner hf
    rfl
  · intro n l args _ _ hf
    obtain ⟨rfl, rfl, rfl⟩ := find_inner hf
    exact .leaf _ _ _ _ _ rfl

theorem model_eval (x : ℕ) : Eval sem (.model [0] nodes [(3, 0)]) [x] [(x + 1) + (x + 1 + 2)] := by
  refine .model _ _ _ _ _ (fun n => if n = 0 then [x] else if n = 1 then [x + 1] else if n = 2 then [x + 1 + 2] else
    if n = 3 then [(x + 1) + (x + 1 + 2)] else [x + 9])
    (fun n => if n = 1 then [x] else if n = 2 then [x + 1] else if n = 3 then [x + 1, x + 1 + 2] else [x]) rfl ?_ ?_ rfl
  · intro n l args _ _ hf
    rcases find_nodes hf with ⟨rfl, rfl, rfl⟩ | ⟨rfl, rfl, rfl⟩ | ⟨rfl, rfl, rfl⟩ | ⟨rfl, rfl, rfl⟩ <;> rfl
  · intro n l args _ _ hf
    rcases find_nodes hf with ⟨rfl, rfl, rfl⟩ | ⟨rfl, rfl, rfl⟩ | ⟨rfl, rfl, rfl⟩ | ⟨rfl, rfl, rfl⟩
    · exact .leaf _ _ _ _ _ rfl
    · exact inner_eval (x + 1)
    · exact .leaf _ _ _ _ _ rfl
    · exact .leaf _ _ _ _ _ rfl

/-- the converted model -/
def prog : Prog Op := ⟨[⟨[1], "d", .add 1, [.inp 0]⟩, ⟨[2, 1], "d_0", .add 2, [.out 0 0]⟩,
  ⟨[3], "s", .sum, [.out 0 0, .out 1 0]⟩], [.out 2 0]⟩

theorem prog_eq : convert (fun _ => 1) idXf 10 [0] nodes [(3, 0)] = .ok (prog, [(3, "s"), (5, "d_0"), (1, "d")]) := by
  rfl

/-- the hypotheses of C43 are met -/
example (x : ℕ) : prog.eval sem [x] = some [(x + 1) + (x + 1 + 2)] :=
  C43_flatten (fun _ => 1) sem sem_len [0] nodes [(3, 0)] graph_ok (by simp) nodes_idx nodes_single 10 prog _ prog_eq [x] _
    (model_eval x)

example (x : ℕ) : ∃ N, ∀ fuel, N ≤ fuel → ∃ p ren, convert (fun _ => 1) idXf fuel [0] nodes [(3, 0)] = .ok (p, ren) :=
  C43_convert_succeeds (fun _ => 1) sem idXf sem_len (idXf_ok _ _) [0] nodes [(3, 0)] graph_ok (by simp) nodes_idx
    nodes_single [x] _ (model_eval x)

theorem wf : WF (.model [0] nodes [(3, 0)]) := by
  refine .model _ _ _ graph_ok.acyclic (by simp; rfl) ?_
  intro n l args hf
  rcases find_nodes hf with ⟨-, rfl, -⟩ | ⟨-, rfl, -⟩ | ⟨-, rfl, -⟩ | ⟨-, rfl, -⟩
  · exact .leaf _ _ _
  · refine .model _ _ _ ⟨id, ?_⟩ (by simp; rfl) ?_
    · intro n l args hf a ha
      obtain ⟨rfl, -, rfl⟩ := find_inner hf
      simp at ha; subst ha; decide
    · intro n l args hf
      obtain ⟨-, rfl, -⟩ := find_inner hf
      exact .leaf _ _ _
  · exact .leaf _ _ _
  · exact .leaf _ _ _

end Ex

/-! C69: models with several outputs inside models -/

/-- the operations of the example: `x + 1`, `x + 2` -/
def addSem : ℕ → List ℕ → Option (List ℕ) := fun op xs => match xs with
  | [x] => some [x + op]
  | _ => none

/-- a nested model with two outputs `x + 1` and `x + 2` -/
def twoOut : Lay ℕ := .model [0] [(1, .leaf 1 "a" 1, [(0, 0)]), (2, .leaf 2 "b" 2, [(0, 0)])] [(1, 0), (2, 0)]

/-- **C69** fails: a model whose output is the second output of a nested two-output model is converted to a model with both
outputs. -/
theorem C69_second_output_lost :
    Eval addSem (.model [0] [(1, twoOut, [(0, 0)])] [(1, 1)]) [5] [7] ∧
    ∃ p ren, convert (fun _ => 1) idXf 10 [0] [(1, twoOut, [(0, 0)])] [(1, 1)] = .ok (p, ren) ∧
      p.eval addSem [5] = some [6, 7] := by
  constructor
  · refine .model _ _ _ _ _ (fun n => if n = 0 then [5] else [6, 7]) (fun _ => [5]) rfl ?_ ?_ rfl
    · intro n l args _ hn hf
      have hn : n ≠ 0 := by simpa using hn
      rcases Nat.eq_or_lt_of_le (Nat.one_le_iff_ne_zero.mpr hn) with rfl | hgt
      · cases hf; rfl
      · have : NodeTab.find (α := ℕ) [(1, twoOut, [(0, 0)])] n = none := by
          unfold NodeTab.find
          rw [List.find?_eq_none.mpr]
          · rfl
          · simp; omega
        rw [this] at hf; cases hf
    · intro n l args _ hn hf
      have hn : n ≠ 0 := by simpa using hn
      rcases Nat.eq_or_lt_of_le (Nat.one_le_iff_ne_zero.mpr hn) with rfl | hgt
      · cases hf
        refine .model _ _ _ _ _ (fun n => if n = 0 then [5] else [5 + n]) (fun _ => [5]) rfl ?_ ?_ rfl
        · intro m l' args' hm hm0 hf'
          have h12 : m = 1 ∨ m = 2 := by
            by_contra hc
            push Not at hc
            have : NodeTab.find (α := ℕ) [(1, .leaf 1 "a" 1, [(0, 0)]), (2, .leaf 2 "b" 2, [(0, 0)])] m = none := by
              unfold NodeTab.find
              rw [List.find?_eq_none.mpr]
              · rfl
              · simp; omega
            rw [this] at hf'; cases hf'
          rcases h12 with rfl | rfl <;> cases hf' <;> rfl
        · intro m l' args' hm hm0 hf'
          have h12 : m = 1 ∨ m = 2 := by
            by_contra hc
            push Not at hc
            have : NodeTab.find (α := ℕ) [(1, .leaf 1 "a" 1, [(0, 0)]), (2, .leaf 2 "b" 2, [(0, 0)])] m = none := by
              unfold NodeTab.find
              rw [List.find?_eq_none.mpr]
              · rfl
              · simp; omega
            rw [this] at hf'; cases hf'
          rcases h12 with rfl | rfl <;> cases hf' <;> exact .leaf _ _ _ _ _ rfl
      · have : NodeTab.find (α := ℕ) [(1, twoOut, [(0, 0)])] n = none := by
          unfold NodeTab.find
          rw [List.find?_eq_none.mpr]
          · rfl
          · simp; omega
        rw [this] at hf; cases hf
  · exact ⟨_, _, rfl, rfl⟩

/-- **C69**, the part that holds: no nested model with several outputs. Same as C43. -/
theorem C69_nested_outputs_partial (ar : α → ℕ) (sem : α → List V → Option (List V))
    (hlen : ∀ op vs ys, sem op vs = some ys → ys.length = ar op) (inputs : List ℕ)
    (nodes : NodeTab α) (outputs : List (ℕ × ℕ)) (hg : GraphOK inputs nodes outputs) (ho : ∀ o ∈ outputs, o.2 = 0)
    (h0 : ∀ n l args, nodes.find n = some (l, args) → ∀ a ∈ args, a.2 = 0)
    (hso : ∀ n l args, nodes.find n = some (l, args) → SingleOut ar l) (fuel : ℕ) (p : Prog α) (ren : List (ℕ × String))
    (hp : convert ar idXf fuel inputs nodes outputs = .ok (p, ren)) (xs ys : List V)
    (hev : Eval sem (.model inputs nodes outputs) xs ys) : p.eval sem xs = some ys :=
  C43_flatten ar sem hlen inputs nodes outputs hg ho h0 hso fuel p ren hp xs ys hev

/-! C44 -/

/-! C44 -/

/-- **C44.** No node is applied twice: the calls of the converted model come from pairwise different nodes (a node being a
path through nested models). -/
theorem C44_applied_once (ar : α → ℕ) (xf : Xf α) (hx : ∀ id name op l, xf id name op = .ok (.new l) → Acyc l)
    (fuel : ℕ) (inputs : List ℕ) (nodes : NodeTab α) (outputs : List (ℕ × ℕ)) (hwf : WF (.model inputs nodes outputs))
    (p : Prog α) (ren : List (ℕ × String)) (hp : convert ar xf fuel inputs nodes outputs = .ok (p, ren)) :
    (p.calls.map (·.path)).Nodup := by
  obtain ⟨s', hs, hc, -⟩ := convert_ok_iff.mp hp
  obtain ⟨new, h1, h2, -⟩ := applyLayer_paths ar xf hx fuel _ _ _ _ _ _ _ hwf.acyc hs
  rw [← hc, h1]
  simpa using h2

/-- **C44**, nothing else is applied: every call of the converted model comes from a layer call of the source that its
outputs depend on. -/
theorem C44_only_needed (ar : α → ℕ) (xf : Xf α) (hx : ∀ id name op l, xf id name op = .ok (.new l) → Acyc l)
    (fuel : ℕ) (inputs : List ℕ) (nodes : NodeTab α) (outputs : List (ℕ × ℕ)) (hwf : WF (.model inputs nodes outputs))
    (p : Prog α) (ren : List (ℕ × String)) (hp : convert ar xf fuel inputs nodes outputs = .ok (p, ren)) :
    ∀ c ∈ p.calls, ∃ path site, CallSite (.model inputs nodes outputs) path site ∧ path <+: c.path := by
  obtain ⟨s', hs, hc, -⟩ := convert_ok_iff.mp hp
  intro c hcm
  rw [← hc] at hcm
  rcases applyLayer_from ar xf hx fuel _ _ _ _ _ _ _ hwf hs c hcm with h | ⟨path, site, h1, h2, -⟩
  · simp at h
  · exact ⟨path, site, h1, by simpa using h2⟩

/-- **C44**, exactly once: under the identity transformer the calls of the converted model are, node by node, the layer
calls of the source that its outputs depend on, each once. -/
theorem C44_flatten_exactly (ar : α → ℕ) (fuel : ℕ) (inputs : List ℕ) (nodes : NodeTab α) (outputs : List (ℕ × ℕ))
    (hwf : WF (.model inputs nodes outputs)) (p : Prog α) (ren : List (ℕ × String))
    (hp : convert ar idXf fuel inputs nodes outputs = .ok (p, ren)) :
    (p.calls.map (·.path)).Nodup ∧ ∀ path op, (∃ c ∈ p.calls, c.path = path ∧ c.op = op) ↔
      ∃ id name, CallSite (.model inputs nodes outputs) path (id, name, op) := by
  have hx : ∀ (id : ℕ) (name : String) (op : α) l, idXf id name op = .ok (.new l) → Acyc l := fun _ _ _ _ h => by cases h
  refine ⟨C44_applied_once ar idXf hx fuel inputs nodes outputs hwf p ren hp, ?_⟩
  obtain ⟨s', hs, hc, -⟩ := convert_ok_iff.mp hp
  intro path op
  constructor
  · rintro ⟨c, hcm, rfl, rfl⟩
    rw [← hc] at hcm
    rcases applyLayer_from ar idXf hx fuel _ _ _ _ _ _ _ hwf hs c hcm with h | ⟨path, ⟨id, name, op⟩, h1, -, h3⟩
    · simp at h
    · obtain ⟨e1, e2⟩ := h3 false id name op rfl
      rw [e1, e2]
      exact ⟨id, name, by simpa using h1⟩
  · rintro ⟨id, name, h⟩
    obtain ⟨c, h1, h2, h3⟩ := applyLayer_sites ar idXf hx _ path (id, name, op) h hwf fuel true [] _ _ _ _ hs false id name
      op rfl
    exact ⟨c, hc ▸ h1, by simpa using h2, h3⟩

/-- **C44**, with any transformer: a needed layer call whose layer becomes the plain layer `op'` is made once. -/
theorem C44_needed_applied (ar : α → ℕ) (xf : Xf α) (hx : ∀ id name op l, xf id name op = .ok (.new l) → Acyc l)
    (fuel : ℕ) (inputs : List ℕ) (nodes : NodeTab α) (outputs : List (ℕ × ℕ)) (hwf : WF (.model inputs nodes outputs))
    (p : Prog α) (ren : List (ℕ × String)) (hp : convert ar xf fuel inputs nodes outputs = .ok (p, ren))
    (path : List ℕ) (id : ℕ) (name : String) (op : α) (hcs : CallSite (.model inputs nodes outputs) path (id, name, op))
    (hsame : xf id name op = .ok .same) : ∃! c, c ∈ p.calls ∧ c.path = path ∧ c.op = op := by
  obtain ⟨s', hs, hc, -⟩ := convert_ok_iff.mp hp
  obtain ⟨c, h1, h2, h3⟩ := applyLayer_sites ar xf hx _ path (id, name, op) hcs hwf fuel true [] _ _ _ _ hs false id name
    op (by simp [settle, hsame])
  rw [hc] at h1
  refine ⟨c, ⟨h1, by simpa using h2, h3⟩, fun c' ⟨g1, g2, _⟩ => ?_⟩
  exact List.inj_on_of_nodup_map (C44_applied_once ar xf hx fuel inputs nodes outputs hwf p ren hp) g1 h1
    (by rw [g2, h2]; simp)

/-- the layer in the nested model is called once, the unused layer is not called -/
example : ∃ c ∈ Ex.prog.calls, c.path = [2, 1] ∧ c.op = .add 2 :=
  ((C44_flatten_exactly (fun _ => 1) 10 [0] Ex.nodes [(3, 0)] Ex.wf Ex.prog _ Ex.prog_eq).2 [2, 1] (.add 2)).mpr
    ⟨5, "d", .node _ _ _ 2 Ex.inner [(1, 0)] _ _
      (.parent 3 (.leaf 3 "s" .sum) [(1, 0), (2, 0)] (2, 0) (.output (3, 0) (by simp)) rfl (by simp)) (by simp) rfl
      (.node _ _ _ 1 (.leaf 5 "d" (.add 2)) [(0, 0)] _ _ (.output (1, 0) (by simp)) (by simp) rfl (.leaf _ _ _))⟩

example : ∀ c ∈ Ex.prog.calls, c.op ≠ .add 9 := by decide

/-! C45 -/

theorem namer_spec : ∀ names used, ∃ out, namer used names = some out ∧ out.length = names.length ∧ out.Nodup ∧
    (∀ x ∈ out, x ∉ used) ∧ ∀ i (h : i < names.length) (h' : i < out.length),
      (names[i] ∉ out.take i ∧ names[i] ∉ used → out[i] = names[i]) ∧
      (names[i] ∈ out.take i ∨ names[i] ∈ used → ∃ j : ℕ, out[i] = names[i] ++ "_" ++ toString j) := by
  intro names
  induction names with
  | nil => intro used; exact ⟨[], rfl, rfl, by simp, by simp, fun i h => by simp at h⟩
  | cons name names ih =>
    intro used
    obtain ⟨nm, hnm⟩ := nextName_isSome used name
    obtain ⟨out, h1, h2, h3, h4, h5⟩ := ih (nm :: used)
    refine ⟨nm :: out, by simp [namer, hnm, h1], by simp [h2], ?_, ?_, ?_⟩
    · exact List.nodup_cons.mpr ⟨fun h => h4 nm h (by simp), h3⟩
    · intro x hx
      rcases List.mem_cons.mp hx with rfl | hx
      · exact nextName_fresh used name _ hnm
      · exact fun hu => h4 x hx (by simp [hu])
    · intro i h h'
      cases i with
      | zero =>
        simp only [List.getElem_cons_zero, List.take_zero, List.not_mem_nil, not_false_eq_true, true_and, false_or]
        unfold nextName at hnm
        constructor
        · intro hu; rw [if_neg hu] at hnm; cases hnm; rfl
        · intro hu
          rw [if_pos hu] at hnm
          obtain ⟨-, j, -, hj, -⟩ := searchName_spec _ _ _ _ _ hnm
          exact ⟨j, hj⟩
      | succ i =>
        simp only [List.getElem_cons_succ, List.take_succ_cons, List.mem_cons]
        have := h5 i (by simpa using h) (by simpa using h')
        constructor
        · rintro ⟨a, b⟩
          push Not at a
          exact this.1 ⟨a.2, by simp [a.1, b]⟩
        · rintro ((a | a) | a)
          · exact this.2 (Or.inr (by simp [a]))
          · exact this.2 (Or.inl a)
          · exact this.2 (Or.inr (by simp [a]))

/-- **C45.** Asking a `Namer` for any sequence of names: every request ends and returns a name, the names returned are
pairwise different, a name not handed out before is returned unchanged, and otherwise the name returned is the requested
one with `_j` appended. -/
theorem C45_namer (names : List String) : ∃ out, namer [] names = some out ∧ out.length = names.length ∧ out.Nodup ∧
    ∀ i (h : i < names.length) (h' : i < out.length), (names[i] ∉ out.take i → out[i] = names[i]) ∧
      (names[i] ∈ out.take i → ∃ j : ℕ, out[i] = names[i] ++ "_" ++ toString j) := by
  obtain ⟨out, h1, h2, h3, -, h5⟩ := namer_spec names []
  exact ⟨out, h1, h2, h3, fun i h h' => ⟨fun hn => (h5 i h h').1 ⟨hn, by simp⟩, fun hn => (h5 i h h').2 (Or.inl hn)⟩⟩

/-- a first-seen name is not always kept: it may have been handed out as a generated name -/
theorem C45_first_seen_renamed : namer [] ["d", "d", "d_0"] = some ["d", "d_0", "d_0_0"] := by
  decide +kernel

/-- **C45**, in a conversion: the layer names of a converted model are pairwise different. -/
theorem C45_names_unique (ar : α → ℕ) (xf : Xf α) (fuel : ℕ) (inputs : List ℕ) (nodes : NodeTab α)
    (outputs : List (ℕ × ℕ)) (p : Prog α) (ren : List (ℕ × String))
    (hp : convert ar xf fuel inputs nodes outputs = .ok (p, ren)) : (p.calls.map (·.name)).Nodup := by
  obtain ⟨s', hs, hc, -⟩ := convert_ok_iff.mp hp
  have := applyLayer_rel ar xf (fun s s' : St α => s.used = (s.calls.map (·.name)).reverse → s.used.Nodup →
      s'.used = (s'.calls.map (·.name)).reverse ∧ s'.used.Nodup) (fun s h1 h2 => ⟨h1, h2⟩)
    (fun a b c h1 h2 h3 h4 => h2 (h1 h3 h4).1 (h1 h3 h4).2) (by
      intro ch id name op id' name' op' _ orig path ins s o s' h h1 h2
      obtain ⟨nm, e1, e2, e3, -⟩ := callLeaf_eq h
      rw [e2, e3, h1]
      refine ⟨by simp, ?_⟩
      rw [← h1]
      exact List.nodup_cons.mpr ⟨nextName_fresh _ _ _ e1, h2⟩) fuel _ _ _ _ _ _ _ hs (by simp) (by simp)
  rw [this.1] at this
  rw [← hc]
  simpa using this.2

example : (Ex.prog.calls.map (·.name)).Nodup :=
  C45_names_unique (fun _ => 1) idXf 10 [0] Ex.nodes [(3, 0)] Ex.prog _ Ex.prog_eq

/-! C70 -/

/-- **C70** fails: flattening a model in which one layer is called twice renames that layer of the source model. -/
theorem C70_source_renamed :
    ∃ p, convert (fun _ : ℕ => 1) idXf 10 [0] [(1, .leaf 7 "dense" 1, [(0, 0)]), (2, .leaf 7 "dense" 1, [(1, 0)])] [(2, 0)] =
      .ok (p, [(7, "dense_0"), (7, "dense")]) := ⟨_, by rfl⟩

/-- **C70**, the part that holds: a transformer that replaces or drops every layer of the source leaves all their names
alone. -/
theorem C70_names_kept_partial (ar : α → ℕ) (xf : Xf α) (fuel : ℕ) (inputs : List ℕ) (nodes : NodeTab α)
    (outputs : List (ℕ × ℕ)) (p : Prog α) (ren : List (ℕ × String)) (hwf : WF (.model inputs nodes outputs))
    (hrep : ∀ path id name op, CallSite (.model inputs nodes outputs) path (id, name, op) → xf id name op ≠ .ok .same)
    (hp : convert ar xf fuel inputs nodes outputs = .ok (p, ren)) : ren = [] := by
  obtain ⟨s', hs, -, hr⟩ := convert_ok_iff.mp hp
  rw [← hr, applyLayer_renamed ar xf fuel _ _ _ _ _ _ _ (Or.inl hwf) (fun _ path site h => hrep path _ _ _ h) hs]

/-- the calls and names of a flattened model -/
theorem flatten_named (ar : α → ℕ) (fuel : ℕ) (inputs : List ℕ) (nodes : NodeTab α) (outputs : List (ℕ × ℕ)) (p : Prog α)
    (ren : List (ℕ × String)) (hwf : WF (.model inputs nodes outputs)) (hp : convert ar idXf fuel inputs nodes outputs = .ok (p, ren)) :
    ∃ es used, (∀ e ∈ es, ∃ op, CallSite (.model inputs nodes outputs) e.1 (e.2.1, e.2.2, op)) ∧ (es.map (·.1)).Nodup ∧
      (∀ path id name op, CallSite (.model inputs nodes outputs) path (id, name, op) → ∃ e ∈ es, e.1 = path) ∧ Named es used ren := by
  obtain ⟨s', hs, hc, hr⟩ := convert_ok_iff.mp hp
  obtain ⟨hnd, hall⟩ := C44_flatten_exactly ar fuel inputs nodes outputs hwf p ren hp
  obtain ⟨es, h1, h2, h3⟩ := applyLayer_named ar (CallSite (.model inputs nodes outputs)) fuel [] _ _ _ _ _ hwf
    (fun path site h => by simpa using h) ⟨[], by simp, by simp, .nil⟩ hs
  refine ⟨es, s'.used, h1, ?_, fun path id name op h => ?_, hr ▸ h3⟩
  · rw [h2, hc]; exact List.nodup_reverse.mpr hnd
  · obtain ⟨c, hcm, hcp, -⟩ := (hall path op).mpr ⟨id, name, h⟩
    have : path ∈ es.map (·.1) := by rw [h2, hc]; exact List.mem_reverse.mpr (List.mem_map.mpr ⟨c, hcm, hcp⟩)
    exact List.mem_map.mp this

/-- a call site belongs to one call -/
theorem callSite_unique {l : Lay α} {path : List ℕ} {x y : ℕ × String × α} (h : CallSite l path x) (h' : CallSite l path y) : x = y := by
  induction h with
  | leaf id name op => cases h'; rfl
  | node inputs nodes outputs n l args path x hnd hni hf _ ih =>
    cases h' with
    | node _ _ _ _ l' args' _ _ _ _ hf' hc' =>
      rw [hf] at hf'
      cases hf'
      exact ih hc'

/-- **C70**, exactly when flattening a model leaves its layers' names alone: if and only if no two calls of the model (at any depth)
are of layers with the same name. `hobj`: a layer object has one name. `ren` has the names written, the last one first. -/
theorem C70_flatten_keeps_names_iff_partial (ar : α → ℕ) (fuel : ℕ) (inputs : List ℕ) (nodes : NodeTab α) (outputs : List (ℕ × ℕ))
    (p : Prog α) (ren : List (ℕ × String)) (hwf : WF (.model inputs nodes outputs))
    (hobj : ∀ path path' id name name' op op', CallSite (.model inputs nodes outputs) path (id, name, op) →
      CallSite (.model inputs nodes outputs) path' (id, name', op') → name = name')
    (hp : convert ar idXf fuel inputs nodes outputs = .ok (p, ren)) :
    (∀ path id name op, CallSite (.model inputs nodes outputs) path (id, name, op) → ren.lookup id = some name) ↔
      ∀ path path' id id' name op op', CallSite (.model inputs nodes outputs) path (id, name, op) →
        CallSite (.model inputs nodes outputs) path' (id', name, op') → path = path' := by
  obtain ⟨es, used, h1, h2, h3, h4⟩ := flatten_named ar fuel inputs nodes outputs p ren hwf hp
  have ho : ∀ e ∈ es, ∀ e' ∈ es, e.2.1 = e'.2.1 → e.2.2 = e'.2.2 := by
    intro e he e' he' hee
    obtain ⟨op, h⟩ := h1 e he
    obtain ⟨op', h'⟩ := h1 e' he'
    rw [hee] at h
    exact hobj _ _ _ _ _ _ _ h h'
  have hent : ∀ path id name op, CallSite (.model inputs nodes outputs) path (id, name, op) → (path, id, name) ∈ es := by
    intro path id name op h
    obtain ⟨e, he, rfl⟩ := h3 path id name op h
    obtain ⟨op', h'⟩ := h1 e he
    have := callSite_unique h h'
    simp only [Prod.mk.injEq] at this
    obtain ⟨rfl, rfl, -⟩ := this
    exact he
  constructor
  · intro hk path path' id id' name op op' ha hb
    by_contra hne
    have hboth : ∀ (a b : List ℕ × ℕ × String), a ∈ es → b ∈ es → a ≠ b → (∃ l₁ l₂, es = l₁ ++ b :: l₂ ∧ a ∈ l₂) ∨
        ∃ l₁ l₂, es = l₁ ++ a :: l₂ ∧ b ∈ l₂ := by
      intro a b hae hbe hab
      obtain ⟨l₁, l₂, rfl⟩ := List.append_of_mem hae
      rcases List.mem_append.mp hbe with hb | hb
      · obtain ⟨m₁, m₂, rfl⟩ := List.append_of_mem hb
        exact .inl ⟨m₁, m₂ ++ a :: l₂, by simp, by simp⟩
      · rcases List.mem_cons.mp hb with rfl | hb
        · exact absurd rfl hab
        · exact .inr ⟨l₁, l₂, rfl, hb⟩
    rcases hboth _ _ (hent _ _ _ _ ha) (hent _ _ _ _ hb) (by simp [hne]) with ⟨l₁, l₂, he, hm⟩ | ⟨l₁, l₂, he, hm⟩
    · exact h4.clash ho l₁ _ l₂ _ he hm rfl (hk _ _ _ _ hb)
    · exact h4.clash ho l₁ _ l₂ _ he hm rfl (hk _ _ _ _ ha)
  · intro hu path id name op h
    obtain ⟨-, rfl⟩ := h4.kept (fun e he e' he' hee => by
      obtain ⟨op, h⟩ := h1 e he
      obtain ⟨op', h'⟩ := h1 e' he'
      rw [hee] at h
      exact hu _ _ _ _ _ _ _ h h') ho h2
    have hmem := hent _ _ _ _ h
    have hs := (h4.fresh ho).2.2 _ hmem
    obtain ⟨b, hb⟩ := Option.isSome_iff_exists.mp hs
    obtain ⟨e, he, hee⟩ := List.mem_map.mp (lookup_mem hb)
    have h5 := ho e he _ hmem (by rw [hee])
    rw [hee] at h5
    simp only at h5 hb
    rw [hb, h5]

/-- two layers, the second called on the output of the first -/
def twoLayers : NodeTab ℕ := [(1, .leaf 7 "a" 1, [(0, 0)]), (2, .leaf 8 "b" 1, [(1, 0)])]

theorem twoLayers_find {n : ℕ} {l : Lay ℕ} {args : List (ℕ × ℕ)} (h : twoLayers.find n = some (l, args)) :
    (n = 1 ∧ l = .leaf 7 "a" 1 ∧ args = [(0, 0)]) ∨ (n = 2 ∧ l = .leaf 8 "b" 1 ∧ args = [(1, 0)]) := by
  have := find_entry h
  simpa [twoLayers] using this

theorem twoLayers_sites {path : List ℕ} {x : ℕ × String × ℕ} (h : CallSite (.model [0] twoLayers [(2, 0)]) path x) :
    (path = [1] ∧ x = (7, "a", 1)) ∨ (path = [2] ∧ x = (8, "b", 1)) := by
  cases h with
  | node _ _ _ n l args path _ _ _ hf hc =>
    rcases twoLayers_find hf with ⟨rfl, rfl, -⟩ | ⟨rfl, rfl, -⟩ <;> cases hc <;> simp

-- the hypotheses of `C70_flatten_keeps_names_iff_partial` and its right-hand side are met: both names are kept
example : WF (.model [0] twoLayers [(2, 0)]) ∧
    (∀ path path' id name name' op op', CallSite (.model [0] twoLayers [(2, 0)]) path (id, name, op) →
      CallSite (.model [0] twoLayers [(2, 0)]) path' (id, name', op') → name = name') ∧
    (∀ path path' id id' name op op', CallSite (.model [0] twoLayers [(2, 0)]) path (id, name, op) →
        CallSite (.model [0] twoLayers [(2, 0)]) path' (id', name, op') → path = path') ∧
    ∃ p, convert (fun _ => 1) idXf 10 [0] twoLayers [(2, 0)] = .ok (p, [(8, "b"), (7, "a")]) := by
  refine ⟨.model _ _ _ ⟨id, ?_⟩ ?_ ?_, ?_, ?_, _, rfl⟩
  · intro n l args hf a ha
    rcases twoLayers_find hf with ⟨rfl, -, rfl⟩ | ⟨rfl, -, rfl⟩ <;> simp at ha <;> subst ha <;> simp
  · intro n hn
    simp only [List.mem_singleton] at hn
    subst hn; rfl
  · intro n l args hf
    rcases twoLayers_find hf with ⟨-, rfl, -⟩ | ⟨-, rfl, -⟩ <;> exact .leaf _ _ _
  · intro path path' id name name' op op' h h'
    rcases twoLayers_sites h with ⟨-, h⟩ | ⟨-, h⟩ <;> rcases twoLayers_sites h' with ⟨-, h'⟩ | ⟨-, h'⟩ <;>
      simp only [Prod.mk.injEq] at h h' <;> obtain ⟨rfl, rfl, -⟩ := h <;> obtain ⟨h1, rfl, -⟩ := h' <;> first | rfl | (cases h1)
  · intro path path' id id' name op op' h h'
    rcases twoLayers_sites h with ⟨rfl, g⟩ | ⟨rfl, g⟩ <;> rcases twoLayers_sites h' with ⟨rfl, g'⟩ | ⟨rfl, g'⟩ <;> first
      | rfl
      | (rw [Prod.mk.injEq, Prod.mk.injEq] at g g'; have := g.2.1.symm.trans g'.2.1; simp at this)

/-- a transformer replacing every layer by a renamed copy; `x + c` layers with an id above 100 are such copies -/
def copyXf : Xf Ex.Op := fun id name op => if 100 < id then .ok .same else .ok (.new (.leaf (id + 101) name op))

example : ∃ p, convert (fun _ => 1) copyXf 10 [0] [(1, .leaf 7 "dense" (.add 1), [(0, 0)]),
    (2, .leaf 7 "dense" (.add 1), [(1, 0)])] [(2, 0)] = .ok (p, []) ∧ p.calls.map (·.name) = ["dense", "dense_0"] :=
  ⟨_, by rfl, by rfl⟩

end HGQ.Convert
