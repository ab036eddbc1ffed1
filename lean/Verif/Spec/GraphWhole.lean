import Verif.Spec.Graph

/-!
The function a nested model has if a reference to one tensor of a layer call is read as a reference to all tensors the call returns.
This is what flattening computes (C69); for calls that return one tensor it is the function of the model itself (`whole_of_eval`).
-/

namespace HGQ.Convert

/-- the tensors of several calls as arguments of a layer: all tensors of a single call, or one tensor each -/
def joinAll {V : Type} : List (List V) → Option (List V)
  | [l] => some l
  | ls => if ∀ l ∈ ls, l.length = 1 then some ls.flatten else none

/-- like `Eval`, but the output index of a tensor reference is ignored -/
inductive WholeEval {α V : Type} (sem : α → List V → Option (List V)) : Lay α → List V → List V → Prop
  | leaf (id : ℕ) (name : String) (op : α) (xs ys : List V) : sem op xs = some ys → WholeEval sem (.leaf id name op) xs ys
  | model (inputs : List ℕ) (nodes : NodeTab α) (outputs : List (ℕ × ℕ)) (xs ys : List V) (v : ℕ → List V)
      (w : ℕ → List V)
      (hin : inputs.map v = xs.map fun x => [x])
      (hargs : ∀ n l args, Needed nodes outputs n → n ∉ inputs → nodes.find n = some (l, args) →
        joinAll (args.map fun a => v a.1) = some (w n))
      (hnode : ∀ n l args, Needed nodes outputs n → n ∉ inputs → nodes.find n = some (l, args) → WholeEval sem l (w n) (v n))
      (hout : joinAll (outputs.map fun a => v a.1) = some ys) :
      WholeEval sem (.model inputs nodes outputs) xs ys

/-- a model Keras can build, at every level -/
inductive BuiltOK {α : Type} : Lay α → Prop
  | leaf (id : ℕ) (name : String) (op : α) : BuiltOK (.leaf id name op)
  | model (inputs : List ℕ) (nodes : NodeTab α) (outputs : List (ℕ × ℕ)) : GraphOK inputs nodes outputs →
      (∀ n l args, nodes.find n = some (l, args) → BuiltOK l) → BuiltOK (.model inputs nodes outputs)

end HGQ.Convert
