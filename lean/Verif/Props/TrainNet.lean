import Verif.Lemmas.TrainNet
import Verif.Props.QuantError

/-!
C109: the forward pass of a whole model in training and at inference.

`net.callT training record ss nz envs` is `model(batch, training=training)` with random numbers `nz`, on a batch `envs` of samples;
`net.call record ss envs` is inference. Both return the states of the quantizers (with the recorded ranges) and all tensors.
-/

namespace HGQ
open Spec

/-- a quantizer that computes in training with the rounded bitwidth and without random numbers -/
def QConf.Deterministic (c : QConf) : Prop :=
  c.exactQValue = true ∧ (c.strategy = strategyCode "standard_round" ∨ c.strategy = strategyCode "floor")

/-- **C109**: inference does not depend on random numbers, whatever the strategies. -/
theorem C109_inference (net : Net) (ss : List QState) (record : Bool) (nz : ℕ → Noise) (envs : List (List (List ℚ))) :
    net.callT false record ss nz envs = net.call record ss envs := by
  have := net.callT_eq false record ss nz envs fun ni _ => ⟨fun q _ f x n => C11_inference_total _ _ _ _, fun L _ f x n => C11_inference_total _ _ _ _⟩
  simpa using this

/-- **C109**: if all quantizers are deterministic and use the rounded bitwidths, a forward pass in training computes exactly the tensors
of inference and records exactly the ranges inference records while tracing, for every batch and every state. -/
theorem C109_training_is_inference (net : Net) (ss : List QState) (record : Bool) (nz : ℕ → Noise) (envs : List (List (List ℚ)))
    (hq : ∀ ni ∈ net, ∀ q, ni.1.site = some q → q.conf.Deterministic) (hk : ∀ ni ∈ net, ∀ L, ni.1 = .linear L → L.kq.Deterministic) :
    net.callT true record ss nz envs = net.call true ss envs := by
  have hd : ∀ c : QConf, c.Deterministic → ∀ f x n, c.forward f x n true = .ok (evalQ c.strategy f x) := by
    intro c hc f x n
    rw [C12_train_equals_inference c hc.1 hc.2 f x n n, C11_inference_total]
  exact net.callT_eq true record ss nz envs fun ni hni => ⟨fun q hs => hd _ (hq ni hni q hs), fun L hL => hd _ (hk ni hni L hL)⟩

/-- **C109**: with any strategies, stochastic rounding and noise injection included, with rounded or unrounded bitwidths, a forward pass in
training on bounded inputs succeeds for all random numbers and stays within `K * 2^-F` of the network without quantizers and of inference,
if all bitwidths are at least `F`; `K` depends only on the network without quantizers and the bound. -/
theorem C109_gap (fnet : FNet) (ht : fnet.Tame) (B : ℚ) (hB : 0 ≤ B) : ∃ K : ℚ, ∀ (net : Net), net.float = fnet → (∀ ni ∈ net, ni.1.Valid) →
    ∀ (F : ℕ) (ss : List QState), net.All Node.WF ss → net.All (Node.Fine F) ss → ∀ (record : Bool) (nz : ℕ → Noise), (∀ i, (nz i).Unit) →
      ∀ envs : List (List (List ℚ)), (∀ x ∈ envs, ∀ t ∈ x, Within B t) →
        ∃ ss' outs, net.callT true record ss nz envs = .ok (ss', outs) ∧
          List.Forall₂ (fun x out => List.Forall₂ (Close (K / 2 ^ F)) out (fnet.eval x)) envs outs ∧
          List.Forall₂ (fun x out => ∃ env, net.predict ss x = .ok env ∧ List.Forall₂ (Close (2 * K / 2 ^ F)) out env) envs outs := by
  obtain ⟨K, -, h⟩ := FNet.error fnet ht B 0 hB le_rfl
  refine ⟨K, fun net hnet hv F ss hw hf record nz hn envs hx => ?_⟩
  have eK : K * p2 (-(F : ℤ)) = K / 2 ^ F := by unfold p2; rw [zpow_neg, zpow_natCast]; rfl
  have e2 : K / 2 ^ F + K / 2 ^ F = 2 * K / 2 ^ F := by ring
  obtain ⟨ss', outs, h1, h2⟩ := net.callT_perturbed true record ss nz envs hw hf hv hn
  have key : ∀ x ∈ envs, ∀ out, net.float.Perturbed (p2 (-(F : ℤ))) x out → List.Forall₂ (Close (K / 2 ^ F)) out (fnet.eval x) := by
    intro x hxm out ho
    rw [← eK]
    exact h (p2 (-(F : ℤ))) (p2_pos _).le (p2_neg_nat_le F) x x _ (hnet ▸ ho) (List.forall₂_same.mpr fun t _ => ⟨rfl, fun p => by simp⟩) (hx x hxm)
  have hmem : List.Forall₂ (fun x out => x ∈ envs ∧ net.float.Perturbed (p2 (-(F : ℤ))) x out) envs outs := by
    clear hx key h1
    induction h2 with
    | nil => exact .nil
    | cons h _ ih => exact .cons ⟨by simp, h⟩ (ih.imp fun _ _ hh => ⟨by simp [hh.1], hh.2⟩)
  refine ⟨ss', outs, h1, hmem.imp fun x out ho => key x ho.1 out ho.2, hmem.imp fun x out ho => ?_⟩
  refine ⟨_, predict_eq net ss (all_imp (fun _ _ h => h.clip) hw) x, ?_⟩
  have g1 := key x ho.1 out ho.2
  have g2 := key x ho.1 _ (Net.evalEnv_perturbed hw hf x)
  refine forall2_comp (fun a b c hab hcb => ?_) g1 g2
  refine ⟨hab.1.trans hcb.1.symm, fun p => ?_⟩
  rw [← e2]
  refine near_add (hab.2 p) ?_
  rw [abs_sub_comm]
  exact hcb.2 p

/-! ### examples -/

theorem exNet_deterministic : (∀ ni ∈ exNet, ∀ q, ni.1.site = some q → q.conf.Deterministic) ∧
    ∀ ni ∈ exNet, ∀ L, ni.1 = .linear L → L.kq.Deterministic := by
  constructor
  · intro ni hni q hq
    simp only [exNet, List.mem_cons, List.not_mem_nil, or_false] at hni
    rcases hni with rfl | rfl | rfl | rfl <;> cases hq <;> exact ⟨rfl, by decide⟩
  · intro ni hni L hL
    simp only [exNet, List.mem_cons, List.not_mem_nil, or_false] at hni
    rcases hni with rfl | rfl | rfl | rfl <;> cases hL <;> exact ⟨rfl, by decide⟩

-- a training step on a batch of two samples, from fresh ranges: tensors and recorded ranges of the dense layer
example : (match exNet.callT true false (exNetStates.map QState.reset) (fun _ => ⟨fun _ => 1 / 3, fun _ => 1 / 2, fun b p => b / (p + 2)⟩) exData with
    | .ok (ss, envs) => (ss.map fun s => ((s.mn 0).untopD 99, (s.mx 1).unbotD 99), envs)
    | .error _ => ([], [])) =
    ([(-2, 5 / 4), (-3 / 2, 19 / 4), (99, 99), (1, 5 / 4)],
     [[[1, 1 / 3], [1, 1 / 4], [1, 0], [0, 1], [1, 5 / 4]], [[-2, 5 / 4], [-2, 5 / 4], [0, 19 / 4], [19 / 4, 0], [3, 5 / 4]]]) := by decide +kernel

/-- one stochastic quantizer -/
def stochNet : Net := [(.quantize ⟨⟨1, true, none, fun t => if t ≤ 0 then 1 else 2 ^ (t.num.toNat / t.den + 1), 7 / 10⟩, [1], [1]⟩, [0])]

def stochState : QState := ⟨fun _ => 1, fun _ => ⊤, fun _ => ⊥⟩

/-- **C109**: with stochastic rounding training depends on the random numbers and differs from inference: 2/3 with one fractional bit
becomes 1 or 1/2 in training and 1/2 at inference. -/
theorem C109_stochastic :
    (stochNet.callT true false [stochState] (fun _ => ⟨fun _ => 0, fun _ => 0, fun _ _ => 0⟩) [[[2 / 3]]]).map (·.2) = .ok [[[2 / 3], [1]]] ∧
    (stochNet.callT true false [stochState] (fun _ => ⟨fun _ => 0, fun _ => 0, fun _ _ => 1 / 2⟩) [[[2 / 3]]]).map (·.2) = .ok [[[2 / 3], [1 / 2]]] ∧
    (stochNet.call false [stochState] [[[2 / 3]]]).map (·.2) = .ok [[[2 / 3], [1 / 2]]] := by decide +kernel

-- the hypotheses of `C109_gap` are met by this network
example : stochNet.float.Tame ∧ (∀ ni ∈ stochNet, ni.1.Valid) ∧ stochNet.All Node.WF [stochState] ∧ stochNet.All (Node.Fine 1) [stochState] := by
  refine ⟨fun l hl => ?_, fun ni hni => ?_, ?_, ?_⟩
  · simp only [stochNet, Net.float, Node.float, List.map_cons, List.map_nil, List.mem_singleton] at hl
    subst hl; trivial
  · rw [stochNet, List.mem_singleton] at hni
    subst hni
    refine ⟨fun q hq => ?_, fun L hL => by cases hL⟩
    cases hq
    refine ⟨.inr (.inl rfl), fun n t hnt => ?_⟩
    simp only
    split_ifs with h
    · have : (n : ℚ) ≤ 0 := hnt.trans h
      have : n = 0 := by exact_mod_cast le_antisymm this (Nat.cast_nonneg n)
      rw [this, pow_zero]
    · refine pow_le_pow_right₀ (by norm_num) ?_
      have hd : (0 : ℚ) < t.den := by exact_mod_cast t.den_pos
      have h1 : (n : ℚ) * t.den ≤ t.num := by
        have := mul_le_mul_of_nonneg_right hnt hd.le
        rwa [Rat.mul_den_eq_num] at this
      have h2 : (n * t.den : ℤ) ≤ t.num := by exact_mod_cast h1
      have h3 : n * t.den ≤ t.num.toNat := by omega
      have := (Nat.le_div_iff_mul_le t.den_pos).mpr h3
      omega
  · refine ⟨⟨fun q hq => ?_, fun q hq => ?_, fun q hq e => by norm_num [stochState], fun L hL => (nomatch hL), fun _ _ _ h => nomatch h⟩, trivial⟩
    · cases hq; decide
    · cases hq; exact fun e => rfl
  · exact ⟨⟨fun q hq e _ => by norm_num [stochState], fun L hL => by cases hL⟩, trivial⟩

end HGQ
