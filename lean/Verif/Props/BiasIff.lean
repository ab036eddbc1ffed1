import Verif.Props.Accum
import Verif.Props.BatchNorm

/-!
C64, C68: exactly for which biases the claims hold.
-/

namespace HGQ

/-- **C68**, exactly: the declared bias type holds the deployed bias if and only if the bias is a multiple of the resolution of the products (cut
down to `off` bits more than the result has, if an offset is configured) and within the range of the result type if the result wraps, and within
the range of the products otherwise. -/
theorem C68_iff (r : KifRS) (produced kernelT : KIF) (off : Option ℤ) (b : ℚ)
    (hk : r.kif.k = 0 ∨ r.kif.k = 1) (hk' : produced.k = 0 ∨ produced.k = 1) :
    let t := if r.sat = .WRAP then r.kif else produced
    let f := match off with | none => produced.f | some o => min (r.kif.f + o) produced.f
    0 ≤ t.k + t.i + f →
    ((linTypes r produced kernelT off).bias.cast .TRN .WRAP b = b ↔
      (∃ n : ℤ, b = n * (2 : ℚ) ^ (-f)) ∧ -(t.k * (2 : ℚ) ^ t.i) ≤ b ∧ b < (2 : ℚ) ^ t.i) := by
  intro t f hw
  have ht : (linTypes r produced kernelT off).bias = ⟨t.k, t.i, f⟩ := by
    unfold linTypes
    simp only [t, f]
    by_cases h : r.sat = .WRAP
    · simp only [h, if_true]; cases off <;> rfl
    · rw [if_neg h]
      cases hs : r.sat <;> first | exact absurd hs h | (cases off <;> simp [add_comm])
  have htk : t.k = 0 ∨ t.k = 1 := by simp only [t]; split <;> assumption
  constructor
  · intro h
    obtain ⟨s, hs⟩ := bool_of_k htk
    have := gq_kif s (i := t.i) (f := f) (by omega) .TRN .WRAP b
    rw [ht, KIF.cast_eq_gq ⟨t.k, t.i, f⟩ s hs] at h
    rw [h, ← hs] at this
    exact this
  · intro h
    have e := C68_bias_type_holds_bias_partial r produced kernelT off b (by rw [ht]; exact htk) (by rw [ht]; exact hw) (by rw [ht]; exact h)
    exact e

-- products with one fractional bit and a wrapping result: 3/2 is stored, 1/4 and 5 are not
example : let T := linTypes ⟨⟨0, 2, 0⟩, .TRN, .WRAP⟩ ⟨0, 6, 1⟩ ⟨0, 1, 0⟩ none
    T.bias.cast .TRN .WRAP (3 / 2) = 3 / 2 ∧ T.bias.cast .TRN .WRAP (1 / 4) ≠ 1 / 4 ∧ T.bias.cast .TRN .WRAP 5 ≠ 5 := by decide +kernel

example : (linTypes ⟨⟨1, 2, 0⟩, .TRN, .SAT⟩ ⟨1, 3, 4⟩ ⟨0, 1, 0⟩ (some 2)).bias.cast .TRN .WRAP (-13 / 4) = -13 / 4 :=
  (C68_iff ⟨⟨1, 2, 0⟩, .TRN, .SAT⟩ ⟨1, 3, 4⟩ ⟨0, 1, 0⟩ (some 2) (-13 / 4) (.inr rfl) (.inr rfl) (by decide)).2
    ⟨⟨-13, by decide +kernel⟩, by decide +kernel, by decide +kernel⟩

/-- **C64**, exactly: the fused layer at inference, before quantization, is batch normalisation of the plain layer `x·k + bias` if and only if the
bias of the channel is 0 or the batch normalisation does not scale the channel. -/
theorem C64_iff (b : BNLayer) (hc : b.center = true) (hs : b.scale = true) (hu : b.useBias = true) (x : List ℚ) (p : ℕ)
    (hk : ∀ ij ∈ b.taps p, b.kchan ij.2 = b.chan p) :
    b.lin b.fusedKernel x p + b.inferBias (b.chan p) =
      Spec.batchNorm b.rsqrt (b.gamma (b.chan p)) (b.beta (b.chan p)) (b.movingMean (b.chan p)) (b.movingVar (b.chan p))
        b.eps (b.lin b.kernel x p + b.bias (b.chan p)) ↔
    b.bias (b.chan p) = 0 ∨ b.gamma (b.chan p) * b.rsqrt (b.movingVar (b.chan p) + b.eps) = 1 := by
  rw [C64_gap b hc hs hu x p hk]
  constructor
  · intro h
    have h0 : b.bias (b.chan p) * (1 - b.gamma (b.chan p) * b.rsqrt (b.movingVar (b.chan p) + b.eps)) = 0 := by linarith
    rcases mul_eq_zero.1 h0 with h1 | h1
    · exact .inl h1
    · exact .inr (by linarith)
  · rintro (h | h)
    · rw [h]; ring
    · rw [h]; ring

-- the layer of `C64_bias_fails` meets the hypotheses, its bias is not 0 and its channel is scaled
example : exBN.center = true ∧ exBN.scale = true ∧ exBN.useBias = true ∧ (∀ ij ∈ exBN.taps 0, exBN.kchan ij.2 = exBN.chan 0) ∧
    exBN.bias (exBN.chan 0) ≠ 0 ∧ exBN.gamma (exBN.chan 0) * exBN.rsqrt (exBN.movingVar (exBN.chan 0) + exBN.eps) ≠ 1 := by decide +kernel

end HGQ
