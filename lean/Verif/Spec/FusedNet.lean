import Verif.Spec.FloatNet

/-!
Networks without quantizers in which batch normalisation is a computation of its own, after the dense or convolution layer and before
the activation. Independent of the model.
-/

namespace Spec

/-- the parameters and statistics of batch normalisation, per channel; `rsqrt x` stands for `1 / sqrt x` -/
structure Norm where
  gamma : ℕ → ℚ
  beta : ℕ → ℚ
  mean : ℕ → ℚ
  var : ℕ → ℚ
  eps : ℚ
  rsqrt : ℚ → ℚ

/-- batch normalisation of the value `y` of channel `c` -/
def Norm.apply (N : Norm) (c : ℕ) (y : ℚ) : ℚ := N.gamma c * (y - N.mean c) * N.rsqrt (N.var c + N.eps) + N.beta c

/-- a layer: any layer without quantizers, or a dense or convolution layer without bias, then batch normalisation, then (or not) relu -/
inductive RLayer
  | plain (l : FLayer)
  | normed (n : ℕ) (taps : ℕ → List (ℕ × ℕ)) (weight : ℕ → ℚ) (chan : ℕ → ℕ) (N : Norm) (relu : Bool)

/-- the output tensor of a layer -/
def RLayer.eval (l : RLayer) (ins : List (List ℚ)) : List ℚ :=
  match l with
  | .plain l => l.eval ins
  | .normed n taps weight chan N relu => (List.range n).map fun p =>
    let z := N.apply (chan p) ((taps p).map fun ij => (ins.headD []).getD ij.1 0 * weight ij.2).sum
    if relu then max z 0 else z

/-- layers in topological order, each with the positions of its inputs among the tensors computed so far -/
abbrev RNet := List (RLayer × List ℕ)

/-- all tensors of a network: the inputs `env`, then the output of every layer -/
def RNet.eval : RNet → List (List ℚ) → List (List ℚ)
  | [], env => env
  | (l, ins) :: rest, env => RNet.eval rest (env ++ [l.eval (ins.map fun i => env.getD i [])])

/-- A layer that normalises and only then adds a bias: a dense or convolution layer without bias, batch normalisation, a bias, then (or not) relu. -/
inductive LateLayer
  | plain (l : FLayer)
  | late (n : ℕ) (taps : ℕ → List (ℕ × ℕ)) (weight : ℕ → ℚ) (chan : ℕ → ℕ) (N : Norm) (bias : ℕ → ℚ) (relu : Bool)

/-- the output tensor of a layer -/
def LateLayer.eval (l : LateLayer) (ins : List (List ℚ)) : List ℚ :=
  match l with
  | .plain l => l.eval ins
  | .late n taps weight chan N bias relu => (List.range n).map fun p =>
    let z := N.apply (chan p) ((taps p).map fun ij => (ins.headD []).getD ij.1 0 * weight ij.2).sum + bias (chan p)
    if relu then max z 0 else z

/-- all tensors of a network: the inputs `env`, then the output of every layer -/
def LateNet.eval : List (LateLayer × List ℕ) → List (List ℚ) → List (List ℚ)
  | [], env => env
  | (l, ins) :: rest, env => LateNet.eval rest (env ++ [l.eval (ins.map fun i => env.getD i [])])

end Spec
