import Mathlib.Data.List.Basic
import Mathlib.Data.List.Nodup
import Mathlib.Data.Nat.Digits.Defs

/-!
Model of the graph conversion in `/repo/src/HGQ/proxy/convert.py`: `convert_model`, `apply_layer`, `_get_out_tensor`,
`Namer`, `solve_dependencies`.

`α` stands for the operation a Keras layer performs (class, configuration and weights). Nodes of a graph are numbered.
Conversion is abstract in `α`, except that it has to know how many tensors a layer returns (`ar`).
-/

namespace HGQ.Convert

/-- A Keras layer object: a plain layer (with its object identity and name), or a `keras.Model` given by its input nodes,
its nodes (layer called, and the tensors it is called on as (node, output index)) and its output tensors.
The layers and nodes read by proxy/convert.py lines 20-54. -/
inductive Lay (α : Type)
  | leaf (id : ℕ) (name : String) (op : α)
  | model (inputs : List ℕ) (nodes : List (ℕ × Lay α × List (ℕ × ℕ))) (outputs : List (ℕ × ℕ))

/-- a node as listed by `solve_dependencies`: layer and input tensors.
`dependencies_dict`, proxy/convert.py lines 44-53. -/
abbrev NodeTab (α : Type) := List (ℕ × Lay α × List (ℕ × ℕ))

/-- `dependencies_dict[node]`, convert.py lines 34-54 -/
def NodeTab.find {α : Type} (nodes : NodeTab α) (n : ℕ) : Option (Lay α × List (ℕ × ℕ)) :=
  (nodes.find? fun e => e.1 == n).map (·.2)

/-- result of a layer transformer: the same object, `None`, or another layer.
The result of `layer_xformer`, proxy/convert.py lines 149-161. -/
inductive XRes (α : Type)
  | same
  | drop
  | new (l : Lay α)

/-- a layer transformer (on plain layers; models are not handed to it, line 173) -/
abbrev Xf (α : Type) := ℕ → String → α → Except String (XRes α)

/-- a tensor of the model being built: an input, or output `k` of call number `c`.
The values of `satisfied`, proxy/convert.py lines 131 and 191. -/
inductive Ref
  | inp (i : ℕ)
  | out (c k : ℕ)
  deriving DecidableEq, Repr

/-- One layer call of the model being built. `path` is not in the code: it records which node (through nested models) of
the source model the call comes from. proxy/convert.py lines 162-168. -/
structure Call (α : Type) where
  path : List ℕ
  name : String
  op : α
  args : List Ref
  deriving DecidableEq, Repr

/-- state of a conversion: `namer.used_names`, the calls made so far, and the `_name`s overwritten on layer objects of the
source model (line 163) -/
structure St (α : Type) where
  used : List String
  calls : List (Call α)
  renamed : List (ℕ × String)

/-- candidate `f'{name}_{i}'`. proxy/convert.py lines 100-102. -/
def cand (name : String) (i : ℕ) : String := name ++ "_" ++ toString i

/-- the `while` loop of `next_name`, convert.py lines 100-101; at most `fuel` steps -/
def searchName (used : List String) (name : String) : ℕ → ℕ → Option String
  | 0, _ => none
  | fuel + 1, i => if cand name i ∈ used then searchName used name fuel (i + 1) else some (cand name i)

/-- `Namer.next_name`, convert.py lines 97-104, without the update of `used_names`. `none`: the loop did not end within
`used.length + 1` steps (`C45_terminates`: it always does). -/
def nextName (used : List String) (name : String) : Option String :=
  if name ∈ used then searchName used name (used.length + 1) 0 else some name

/-- a sequence of calls of `next_name` on one `Namer`, convert.py lines 97-104: the names returned -/
def namer : List String → List String → Option (List String)
  | _, [] => some []
  | used, name :: names => do
    let nm ← nextName used name
    let rest ← namer (nm :: used) names
    return nm :: rest

/-- result of the loop of `apply_layer`. proxy/convert.py lines 149-170. -/
inductive Settled (α : Type)
  | layer (changed : Bool) (id : ℕ) (name : String) (op : α)
  | dropped
  | toModel (l : Lay α)

/-- the transformation loop of `apply_layer`, convert.py lines 149-159, with `g` iterations left before the assertion on
line 156 fails. A transformer maps `None` to itself (lines 280-281; unary_lut.py lines 87-88). -/
def settle {α : Type} (xf : Xf α) : ℕ → Bool → ℕ → String → α → Except String (Settled α)
  | g, changed, id, name, op =>
    match xf id name op with
    | .error e => .error e
    | .ok .same => .ok (.layer changed id name op)
    | .ok (.new (.model i ns o)) => .ok (.toModel (.model i ns o))
    | .ok .drop => if g = 0 then .error "layer_transformer does not converge" else .ok .dropped
    | .ok (.new (.leaf id' name' op')) =>
      match g with
      | 0 => .error "layer_transformer does not converge"
      | g' + 1 => settle xf g' true id' name' op'

/-- calling a settled layer, convert.py lines 161-168: choose a name, overwrite the layer's `_name` (which matters later
only for objects of the source model), call a copy of it. -/
def callLeaf {α : Type} (ar : α → ℕ) (orig : Bool) (path : List ℕ) (id : ℕ) (name : String) (op : α) (ins : List Ref)
    (s : St α) : Except String (List Ref × St α) :=
  let cur := if orig then (s.renamed.lookup id).getD name else name
  match nextName s.used cur with
  | none => .error "no free name"
  | some nm => .ok ((List.range (ar op)).map (Ref.out s.calls.length),
    ⟨nm :: s.used, s.calls ++ [⟨path, nm, op, ins⟩], if orig then (id, nm) :: s.renamed else s.renamed⟩)

/-- a single item instead of a list of one, a list otherwise (convert.py lines 128-129, 194). Items that are themselves
lists (of several tensors) inside a longer list are rejected when the layer is called. Simplification: if the converted model's own
outputs are such a list, Keras builds a model with nested outputs, which is an error here (C69 concerns these models). -/
def pack (l : List (List Ref)) : Except String (List Ref) :=
  match l with
  | [x] => .ok x
  | l => if l.all fun x => x.length == 1 then .ok l.flatten else .error "nested structure of tensors"

/-- a loop threading a state. The loops at proxy/convert.py lines 122-127 and 193. -/
def mapS {β γ σ : Type} (f : β → σ → Except String (γ × σ)) : List β → σ → Except String (List γ × σ)
  | [], s => .ok ([], s)
  | b :: bs, s => do
    let (c, s) ← f b s
    let (cs, s) ← mapS f bs s
    return (c :: cs, s)

/-- `satisfied` (latest entry first). proxy/convert.py lines 109, 131 and 191. -/
abbrev Sat := List (ℕ × List Ref)

/-- `_get_out_tensor`, convert.py lines 107-132, recursion depth at most `fuel`. Only the parent nodes are looked at, not
which of their outputs is used (`node.parent_nodes`, line 51). `apply` is `apply_layer` on the layer of a node. -/
def getOut {α : Type} (apply : ℕ → Lay α → List Ref → St α → Except String (List Ref × St α)) (nodes : NodeTab α) :
    ℕ → ℕ → Sat × St α → Except String (List Ref × (Sat × St α))
  | 0, _, _ => .error "maximum recursion depth exceeded"
  | fuel + 1, n, (sat, s) =>
    match sat.lookup n with
    | some r => .ok (r, (sat, s))
    | none =>
      match nodes.find n with
      | none => .error "KeyError"
      | some (l, args) => do
        let (inps, (sat, s)) ← mapS (getOut apply nodes fuel) (args.map (·.1)) (sat, s)
        let inps ← pack inps
        let (r, s) ← apply n l inps s
        return (r, ((n, r) :: sat, s))

/-- `apply_layer`, convert.py lines 135-194, recursion depth at most `fuel`. `orig`: the layer belongs to the source model
(and was not made by the transformer). -/
def applyLayer {α : Type} (ar : α → ℕ) (xf : Xf α) : ℕ → Bool → List ℕ → Lay α → List Ref → St α →
    Except String (List Ref × St α)
  | 0, _, _, _, _, _ => .error "maximum recursion depth exceeded"
  | fuel + 1, orig, path, .leaf id name op, ins, s => do
    match ← settle xf 1024 false id name op with
    | .layer changed id name op => callLeaf ar (orig && !changed) path id name op ins s
    | .dropped => return (ins, s)
    | .toModel l => applyLayer ar xf fuel false path l ins s
  | fuel + 1, orig, path, .model inputs nodes outputs, ins, s => do
    let sat := (inputs.zip (ins.map fun r => [r])).reverse
    let (outs, (_, s)) ← mapS (getOut (fun n l => applyLayer ar xf fuel orig (path ++ [n]) l) nodes fuel)
      (outputs.map (·.1)) (sat, s)
    return (← pack outs, s)

/-- a converted model: its layer calls in the order they were made, and its outputs.
proxy/convert.py lines 212-216. -/
structure Prog (α : Type) where
  calls : List (Call α)
  outs : List Ref

/-- `convert_model(model, layer_xformer)`, convert.py lines 197-216. Returns the new model and the names overwritten on
the source model's layers. -/
def convert {α : Type} (ar : α → ℕ) (xf : Xf α) (fuel : ℕ) (inputs : List ℕ) (nodes : NodeTab α)
    (outputs : List (ℕ × ℕ)) : Except String (Prog α × List (ℕ × String)) := do
  let (outs, s) ← applyLayer ar xf fuel true [] (.model inputs nodes outputs)
    ((List.range inputs.length).map Ref.inp) ⟨[], [], []⟩
  return (⟨s.calls, outs⟩, s.renamed)

/-! Running a converted model -/

/-- value of a tensor, given the inputs and the results of the calls so far.
What Keras does with the tensors passed at proxy/convert.py line 168. -/
def deref {V : Type} (xs : List V) (E : List (List V)) : Ref → Option V
  | .inp i => xs[i]?
  | .out c k => E[c]?.bind (·[k]?)

/-- run the calls in order (`sem op vs`: what a layer returns, `none` if it cannot be called on `vs`).
What Keras does with the calls of proxy/convert.py line 168. -/
def evalCalls {α V : Type} (sem : α → List V → Option (List V)) (xs : List V) : List (Call α) → List (List V) →
    Option (List (List V))
  | [], E => some E
  | c :: cs, E => do
    let vs ← c.args.mapM (deref xs E)
    let ys ← sem c.op vs
    evalCalls sem xs cs (E ++ [ys])

/-- `model(xs)` for the converted model. Calling the model returned at proxy/convert.py line 216. -/
def Prog.eval {α V : Type} (sem : α → List V → Option (List V)) (p : Prog α) (xs : List V) : Option (List V) := do
  let E ← evalCalls sem xs p.calls []
  p.outs.mapM (deref xs E)

end HGQ.Convert
