import Verif.Props.BitsPermute
import Verif.Model.ChannelsFirst

/-!
C75 for `PFlatten(data_format='channels_first')`: the layer moves the channels to the end, the bits it reports are not moved.
-/

namespace HGQ
open Spec

/-- **C75**, `PFlatten` with channels first, exactly: the bits the layer reports are those of its input in the old order. They describe all its outputs
if and only if channel `c` at position `s` always has as many bits as the entry that stands, in the input, where this value goes in the output
(types with a negative number of bits count as having none). -/
theorem C75_flatten_first_iff (n ch : ℕ) (F : List KIF) (hF : F.length = n * ch) (hk : ∀ b ∈ F, b.k = 0 ∨ b.k = 1) (st : QState) :
    actBitsOf (.passive fun ins => flattenFirst n ch (ins.headD [])) .reshape 1 st [.ok (F.map KIF.width)] [0] = .ok (F.map KIF.width) ∧
    (Describes (F.map KIF.width) {y | ∃ x, Typed F x ∧ (Node.passive fun ins => flattenFirst n ch (ins.headD [])).out st.fbw [x] = y} ↔
      ∀ s < n, ∀ c < ch, max 0 (F.getD (c * n + s) ⟨0, 0, 0⟩).width = max 0 (F.getD (s * ch + c) ⟨0, 0, 0⟩).width) := by
  refine ⟨rfl, ?_⟩
  have split : ∀ p < F.length, p / ch < n ∧ p % ch < ch ∧ p / ch * ch + p % ch = p := by
    intro p hp
    rw [hF] at hp
    have hch : 0 < ch := by rcases Nat.eq_zero_or_pos ch with h | h; · simp [h] at hp
                            · exact h
    exact ⟨(Nat.div_lt_iff_lt_mul hch).mpr hp, Nat.mod_lt _ hch, Nat.div_add_mod' p ch⟩
  have bound : ∀ p < F.length, p % ch * n + p / ch < F.length := by
    intro p hp
    obtain ⟨h1, h2, -⟩ := split p hp
    rw [hF]
    nlinarith
  have inj : ∀ p < F.length, ∀ q < F.length, p % ch * n + p / ch = q % ch * n + q / ch → p = q := by
    intro p hp q hq h
    obtain ⟨p1, p2, p3⟩ := split p hp
    obtain ⟨q1, q2, q3⟩ := split q hq
    obtain ⟨a1, a2⟩ := divmod_lt (a := p % ch) p1
    obtain ⟨b1, b2⟩ := divmod_lt (a := q % ch) q1
    have e1 : p % ch = q % ch := by rw [← a1, ← b1, h]
    have e2 : p / ch = q / ch := by rw [← a2, ← b2, h]
    rw [← p3, ← q3, e1, e2]
  have key := C75_permute_iff F hk (fun p => p % ch * n + p / ch) bound inj
  have hset : {y | ∃ x, Typed F x ∧ (Node.passive fun ins => flattenFirst n ch (ins.headD [])).out st.fbw [x] = y} =
      {y | ∃ x, Typed F x ∧ y = (List.range F.length).map fun p => x.getD (p % ch * n + p / ch) 0} := by
    ext y
    constructor
    · rintro ⟨x, hx, rfl⟩; exact ⟨x, hx, by rw [hF]; rfl⟩
    · rintro ⟨x, hx, rfl⟩; exact ⟨x, hx, by rw [hF]; rfl⟩
  rw [hset, key]
  have get : ∀ p (hp : p < F.length), F.getD p ⟨0, 0, 0⟩ = F[p] := by
    intro p hp
    rw [List.getD_eq_getElem?_getD, List.getElem?_eq_getElem hp]; rfl
  constructor
  · intro h s hs c hc
    have hp : s * ch + c < F.length := by rw [hF]; nlinarith
    obtain ⟨a1, a2⟩ := divmod_lt (a := s) hc
    have := h _ hp
    rw [← get _ (bound _ hp), ← get _ hp] at this
    simpa only [a1, a2] using this
  · intro h p hp
    obtain ⟨h1, h2, h3⟩ := split p hp
    have := h _ h1 _ h2
    rw [h3] at this
    rw [← get _ (bound p hp), ← get p hp]
    exact this

/-- **C75** fails for `PFlatten` with channels first: two channels with 3 and 1 bits at both of two positions; the bits reported behind the layer do not
describe its outputs. -/
theorem C75_flatten_first (st : QState) :
    Describes [3, 3, 1, 1] {x | Typed [⟨0, 3, 0⟩, ⟨0, 3, 0⟩, ⟨0, 1, 0⟩, ⟨0, 1, 0⟩] x} ∧
    actBitsOf (.passive fun ins => flattenFirst 2 2 (ins.headD [])) .reshape 1 st [.ok [3, 3, 1, 1]] [0] = .ok [3, 3, 1, 1] ∧
    ¬ Describes [3, 3, 1, 1] {y | ∃ x, Typed [⟨0, 3, 0⟩, ⟨0, 3, 0⟩, ⟨0, 1, 0⟩, ⟨0, 1, 0⟩] x ∧
      (Node.passive fun ins => flattenFirst 2 2 (ins.headD [])).out st.fbw [x] = y} := by
  refine ⟨⟨_, by simp, rfl, fun x hx => hx⟩, rfl, fun h => ?_⟩
  have := (C75_flatten_first_iff 2 2 [⟨0, 3, 0⟩, ⟨0, 3, 0⟩, ⟨0, 1, 0⟩, ⟨0, 1, 0⟩] rfl (by simp) st).2.mp h 0 (by decide) 1 (by decide)
  revert this
  decide

-- the other way round: equal bits everywhere are described
example (st : QState) : Describes [3, 3, 3, 3] {y | ∃ x, Typed [⟨0, 3, 0⟩, ⟨1, 1, 1⟩, ⟨0, 2, 1⟩, ⟨0, 3, 0⟩] x ∧
    (Node.passive fun ins => flattenFirst 2 2 (ins.headD [])).out st.fbw [x] = y} :=
  (C75_flatten_first_iff 2 2 [⟨0, 3, 0⟩, ⟨1, 1, 1⟩, ⟨0, 2, 1⟩, ⟨0, 3, 0⟩] rfl (by simp) st).2.mpr (by decide)

-- channels (1, 2) and (5, 7) at two positions
example : flattenFirst 2 2 [1, 2, 5, 7] = [1, 5, 2, 7] := by decide +kernel

end HGQ
