import Verif.Model.Bops

/-!
Which tensors of a model carry no usable bit count because a layer without a quantizer is called several times (C100).
-/

namespace Spec
open HGQ

/-- Layer `j` of the model is a passive layer that is called several times, or a concatenation with such a layer among its inputs. -/
inductive SwitchedOff (net : Net) (m : BopsModel) : ℕ → Prop
  | reused (j : ℕ) (r : BwRule) (c : ℕ) : m.bw[j]? = some r → (∀ b, r ≠ .layer b) → (∀ bits, r ≠ .signature bits) →
      m.calls[j]? = some c → 2 ≤ c → SwitchedOff net m j
  | concat (j k : ℕ) (nd : Node) (ins : List ℕ) (outer : ℕ) (rests : List ℕ) : m.bw[j]? = some (.concat outer rests) →
      net[j]? = some (nd, ins) → m.nInputs + k ∈ ins → SwitchedOff net m k → SwitchedOff net m j

/-- the same model with every layer called once -/
def calledOnce (m : BopsModel) : BopsModel := { m with calls := m.calls.map fun _ => 1 }

end Spec
