import Verif.Model.Convert

/-!
What a (nested) functional Keras model computes, independently of how it is converted.
-/

namespace HGQ.Convert

/-- the tensors a node is called on -/
inductive Needed {α : Type} (nodes : NodeTab α) (outputs : List (ℕ × ℕ)) : ℕ → Prop
  /-- the node of an output -/
  | output (o : ℕ × ℕ) : o ∈ outputs → Needed nodes outputs o.1
  /-- a node feeding a needed node -/
  | parent (n : ℕ) (l : Lay α) (args : List (ℕ × ℕ)) (a : ℕ × ℕ) : Needed nodes outputs n →
      nodes.find n = some (l, args) → a ∈ args → Needed nodes outputs a.1

/-- `Eval sem l xs ys`: layer (or model) `l` applied to `xs` gives `ys`. `sem op xs` are the outputs of a plain layer (`none`
if it cannot be called on `xs`). A
model gives `ys` if its nodes can be labelled with their outputs so that input nodes carry the inputs, every needed node
carries what its layer gives on the tensors it is called on, and the output tensors are `ys`. -/
inductive Eval {α V : Type} (sem : α → List V → Option (List V)) : Lay α → List V → List V → Prop
  | leaf (id : ℕ) (name : String) (op : α) (xs ys : List V) : sem op xs = some ys → Eval sem (.leaf id name op) xs ys
  | model (inputs : List ℕ) (nodes : NodeTab α) (outputs : List (ℕ × ℕ)) (xs ys : List V) (v : ℕ → List V)
      (w : ℕ → List V)
      (hin : inputs.map v = xs.map fun x => [x])
      (hargs : ∀ n l args, Needed nodes outputs n → n ∉ inputs → nodes.find n = some (l, args) →
        (args.map fun a => (v a.1)[a.2]?) = (w n).map some)
      (hnode : ∀ n l args, Needed nodes outputs n → n ∉ inputs → nodes.find n = some (l, args) → Eval sem l (w n) (v n))
      (hout : (outputs.map fun a => (v a.1)[a.2]?) = ys.map some) :
      Eval sem (.model inputs nodes outputs) xs ys

/-- A graph Keras can build: nodes feeding a needed node exist, and there are no cycles. -/
structure GraphOK {α : Type} (inputs : List ℕ) (nodes : NodeTab α) (outputs : List (ℕ × ℕ)) : Prop where
  closed : ∀ n, Needed nodes outputs n → n ∈ inputs ∨ (nodes.find n).isSome
  acyclic : ∃ depth : ℕ → ℕ, ∀ n l args, nodes.find n = some (l, args) → ∀ a ∈ args, depth a.1 < depth n

/-- every layer and nested model has exactly one output -/
inductive SingleOut {α : Type} (ar : α → ℕ) : Lay α → Prop
  | leaf (id : ℕ) (name : String) (op : α) : ar op = 1 → SingleOut ar (.leaf id name op)
  | model (inputs : List ℕ) (nodes : NodeTab α) (outputs : List (ℕ × ℕ)) : outputs.length = 1 →
      GraphOK inputs nodes outputs → (∀ o ∈ outputs, o.2 = 0) →
      (∀ n l args, nodes.find n = some (l, args) → ∀ a ∈ args, a.2 = 0) →
      (∀ n l args, nodes.find n = some (l, args) → SingleOut ar l) → SingleOut ar (.model inputs nodes outputs)

/-- all plain layers inside satisfy `P` -/
inductive AllLeaves {α : Type} (P : ℕ → String → α → Prop) : Lay α → Prop
  | leaf (id : ℕ) (name : String) (op : α) : P id name op → AllLeaves P (.leaf id name op)
  | model (inputs : List ℕ) (nodes : NodeTab α) (outputs : List (ℕ × ℕ)) :
      (∀ n l args, nodes.find n = some (l, args) → AllLeaves P l) → AllLeaves P (.model inputs nodes outputs)

/-- no cycles, in nested models either -/
inductive Acyc {α : Type} : Lay α → Prop
  | leaf (id : ℕ) (name : String) (op : α) : Acyc (.leaf id name op)
  | model (inputs : List ℕ) (nodes : NodeTab α) (outputs : List (ℕ × ℕ)) :
      (∃ depth : ℕ → ℕ, ∀ n l args, nodes.find n = some (l, args) → ∀ a ∈ args, depth a.1 < depth n) →
      (∀ n l args, nodes.find n = some (l, args) → Acyc l) → Acyc (.model inputs nodes outputs)

/-- The layer calls a (nested) model makes: `CallSite l path (id, name, op)` if a plain layer is called at node `path` of
`l` (a node of `l`, a node of the model called there, and so on); only nodes the outputs depend on. -/
inductive CallSite {α : Type} : Lay α → List ℕ → ℕ × String × α → Prop
  | leaf (id : ℕ) (name : String) (op : α) : CallSite (.leaf id name op) [] (id, name, op)
  | node (inputs : List ℕ) (nodes : NodeTab α) (outputs : List (ℕ × ℕ)) (n : ℕ) (l : Lay α) (args : List (ℕ × ℕ))
      (path : List ℕ) (x : ℕ × String × α) : Needed nodes outputs n → n ∉ inputs → nodes.find n = some (l, args) →
      CallSite l path x → CallSite (.model inputs nodes outputs) (n :: path) x

/-- A model Keras can build, at every level: no cycles, and its inputs are input nodes (nothing is called there). -/
inductive WF {α : Type} : Lay α → Prop
  | leaf (id : ℕ) (name : String) (op : α) : WF (.leaf id name op)
  | model (inputs : List ℕ) (nodes : NodeTab α) (outputs : List (ℕ × ℕ)) :
      (∃ depth : ℕ → ℕ, ∀ n l args, nodes.find n = some (l, args) → ∀ a ∈ args, depth a.1 < depth n) →
      (∀ n ∈ inputs, nodes.find n = none) →
      (∀ n l args, nodes.find n = some (l, args) → WF l) → WF (.model inputs nodes outputs)

/-- A layer transformer that keeps the function of every layer and that finishes: `rank` (below 1024) goes down with each
transformation. -/
structure XfOK {α V : Type} (ar : α → ℕ) (sem : α → List V → Option (List V)) (xf : Xf α) : Prop where
  total : ∀ id name op xs ys, sem op xs = some ys → ∃ r, xf id name op = .ok r
  drop : ∀ id name op, xf id name op = .ok .drop → ∀ xs ys, sem op xs = some ys → ys = xs
  new : ∀ id name op l, xf id name op = .ok (.new l) →
    (∀ xs ys, Eval sem (.leaf id name op) xs ys → Eval sem l xs ys) ∧ SingleOut ar l
  rank : ∃ rank : ℕ → String → α → ℕ, (∀ id name op, rank id name op ≤ 1024) ∧
    (∀ id name op, xf id name op = .ok .drop → 0 < rank id name op) ∧
    ∀ id name op l, xf id name op = .ok (.new l) → AllLeaves (fun i nm o => rank i nm o < rank id name op) l

end HGQ.Convert
