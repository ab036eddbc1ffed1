import Mathlib.Data.Rat.Cast.Order
import Mathlib.Algebra.Order.Ring.Rat
import Mathlib.Algebra.Order.AbsoluteValue.Basic
import Mathlib.Data.List.Forall2
import Mathlib.Algebra.BigOperators.Group.List.Basic

/-!
Feed-forward networks without quantizers, on flat tensors, and the distance of tensors. Independent of the model.
-/

namespace Spec

/-- a layer of a network without quantizers; `n` is the number of outputs -/
inductive FLayer
  /-- the identity -/
  | ident (n : ℕ)
  /-- an activation function, acting on the whole sample -/
  | act (n : ℕ) (φ : List ℚ → List ℚ)
  /-- the sum of all inputs -/
  | add (n : ℕ)
  /-- dense or convolution: output `p` is the sum over `(i, j) ∈ taps p` of input `i` times weight `j`, plus `bias p`; with or without relu -/
  | linear (n : ℕ) (taps : ℕ → List (ℕ × ℕ)) (weight : ℕ → ℚ) (bias : ℕ → ℚ) (relu : Bool)
  /-- any function of the inputs: reshape, pooling, concatenate, ... -/
  | passive (g : List (List ℚ) → List ℚ)

/-- output `p` of a layer with `n` outputs -/
def FLayer.at (l : FLayer) (ins : List (List ℚ)) (p : ℕ) : ℚ :=
  match l with
  | .ident _ => (ins.headD []).getD p 0
  | .act _ φ => (φ (ins.headD [])).getD p 0
  | .add _ => (ins.map fun x => x.getD p 0).sum
  | .linear _ taps weight bias relu =>
    let z := ((taps p).map fun ij => (ins.headD []).getD ij.1 0 * weight ij.2).sum + bias p
    if relu then max z 0 else z
  | .passive g => (g ins).getD p 0

/-- the output tensor of a layer -/
def FLayer.eval (l : FLayer) (ins : List (List ℚ)) : List ℚ :=
  match l with
  | .ident n | .act n _ | .add n | .linear n _ _ _ _ => (List.range n).map (l.at ins)
  | .passive g => g ins

/-- layers in topological order, each with the positions of its inputs among the tensors computed so far -/
abbrev FNet := List (FLayer × List ℕ)

/-- all tensors of a network: the inputs `env`, then the output of every layer -/
def FNet.eval : FNet → List (List ℚ) → List (List ℚ)
  | [], env => env
  | (l, ins) :: rest, env => FNet.eval rest (env ++ [l.eval (ins.map fun i => env.getD i [])])

/-- two tensors of the same size differ by at most `δ` at every position -/
def Close (δ : ℚ) (x y : List ℚ) : Prop := x.length = y.length ∧ ∀ p, |x.getD p 0 - y.getD p 0| ≤ δ

/-- all entries of a tensor are at most `B` in magnitude -/
def Within (B : ℚ) (x : List ℚ) : Prop := ∀ p, |x.getD p 0| ≤ B

/-- A function of `m` tensors which on bounded inputs is bounded and Lipschitz continuous. -/
def Tame (m : ℕ) (g : List (List ℚ) → List ℚ) : Prop :=
  ∀ B, ∃ B' c, 0 ≤ c ∧ ∀ xs : List (List ℚ), xs.length = m → (∀ x ∈ xs, Within B x) →
    Within B' (g xs) ∧ ∀ ys : List (List ℚ), (∀ y ∈ ys, Within B y) → ∀ δ, 0 ≤ δ → List.Forall₂ (Close δ) ys xs → Close (c * δ) (g ys) (g xs)

/-- the activation functions and passive layers of a network are tame -/
def FNet.Tame (net : FNet) : Prop :=
  ∀ l ∈ net, match l.1 with
    | .act _ φ => Spec.Tame l.2.length fun ins => φ (ins.headD [])
    | .passive g => Spec.Tame l.2.length g
    | _ => True

end Spec
