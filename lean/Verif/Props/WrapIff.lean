import Verif.Props.Merge

/-!
C66, wrapping quantizers, exactly: when the derived type of the data path may drop integer bits.
-/

namespace HGQ
open Spec

/-- **C66**, overflow, exactly, for wrapping quantizers with rounding `TRN` or `RND`: a layer produces values of the type `available`, stored in the
type derived from what the layers `outs` request. The element `e` (with at least one bit) of a quantizer `q` among them, reached directly or through
`Concatenate`/`Reshape`/`Flatten`, never sees a difference if and only if it is not signed behind an unsigned type, or the integer bits of
`available` are not more than requested, or more integer bits are requested than the element has. -/
theorem C66_wrap_iff (available : KIF) (hk : available.k = 0 ∨ available.k = 1) (hi : available.i ≤ 65535)
    (outs : List Down) (d : Down) (hd : d ∈ outs) (q : FPQ) (hq : Feeds d q)
    (hw : 1 ≤ (mergePrecision available (requestList outs)).k + (mergePrecision available (requestList outs)).i +
      (mergePrecision available (requestList outs)).f)
    (hR : q.rnd = .TRN ∨ q.rnd = .RND) (hS : q.sat = .WRAP)
    (e : ℕ) (he : e < q.elems.length) (hEk : q.elems[e].keepNegative = 0 ∨ q.elems[e].keepNegative = 1) (hEb : 1 ≤ q.elems[e].bits) :
    (∀ x, available.Holds x → q.call e ((mergePrecision available (requestList outs)).cast .TRN .WRAP x) = q.call e x) ↔
      q.elems[e].keepNegative ≤ available.k ∨ available.i ≤ (requestList outs).i ∨
        q.elems[e].integers - q.elems[e].keepNegative < (requestList outs).i := by
  constructor
  · intro h
    by_contra hc
    push Not at hc
    obtain ⟨c1, c2, c3⟩ := hc
    have ha : available.k = 0 := by omega
    have hE1 : q.elems[e].keepNegative = 1 := by omega
    obtain ⟨-, li, -⟩ := (feeds_request hq).trans (request_mem_le hd)
    generalize requestList outs = req at *
    obtain ⟨E, hE⟩ : ∃ E, E = q.elems[e] := ⟨_, rfl⟩
    have hEm : E ∈ q.elems := by rw [hE]; exact List.getElem_mem he
    rw [← hE] at hE1 hEb c3
    obtain ⟨-, b2, -⟩ := q.elem_le hEm
    have hri : q.request.i = q.kif.i := by unfold FPQ.request; rw [hS]
    have hie : E.integers - E.keepNegative = req.i := by omega
    have hcall : ∀ y, q.call e y = gq true req.i (E.bits - E.integers) q.rnd .WRAP y := by
      intro y
      unfold FPQ.call
      rw [getD_lt _ _ he, ← hE, KBI.apply_eq_gq E true (by rw [hE1]; rfl), hie, hS]
    have hm : mergePrecision available req = ⟨0, req.i, min available.f req.f⟩ := by
      unfold mergePrecision
      dsimp only
      rw [if_neg (by omega), min_eq_right c2.le, ha]
    rw [hm] at hw h
    simp only [zero_add] at hw
    have hwE : 0 ≤ (true : Bool).toInt + req.i + (E.bits - E.integers) := by rw [toInt_true]; omega
    have hx : available.Holds (p2 req.i) := by
      refine ⟨?_, ?_, p2_lt_p2 c2⟩
      · obtain ⟨n, hn⟩ := grid_p2 (i := req.i) (f := available.f) (by omega)
        exact ⟨n, hn⟩
      · rw [ha]
        have := p2_pos req.i
        simpa using this.le
    have h0 : ∀ (s : Bool) (i f : ℤ) (R : Rnd), 0 ≤ s.toInt + i + f → gq s i f R .WRAP 0 = 0 := by
      intro s i f R hsf
      have hz : rv R f 0 = 0 := rv_of_grid R f ⟨0, by simp⟩
      rw [gq_of_kif s hsf R .WRAP (by decide) 0 (by rw [hz]; exact ⟨⟨0, by simp⟩, by
        have := p2_pos i
        change -(_ * p2 i) ≤ _
        rcases toInt_cases s with h | h <;> rw [h] <;> simp [this.le], p2_pos i⟩), hz]
    have hcast : (⟨0, req.i, min available.f req.f⟩ : KIF).cast .TRN .WRAP (p2 req.i) = 0 := by
      rw [KIF.cast_eq_gq _ false rfl]
      have := gq_wrap_period (.inl rfl) false (i := req.i) (f := min available.f req.f) (by rw [toInt_false]; omega) 0 1
      rw [toInt_false, Int.cast_one, one_mul, zero_add, zero_add] at this
      exact this.trans (h0 false _ _ _ (by rw [toInt_false]; omega))
    have := h _ hx
    rw [hcast, hcall, hcall, h0 true _ _ _ hwE] at this
    obtain ⟨m, hm'⟩ := gq_wrap true (i := req.i) (f := E.bits - E.integers) hwE q.rnd (p2 req.i)
    rw [← this, rv_of_grid q.rnd _ (grid_p2 (by omega)), zero_add, toInt_true, p2_add] at hm'
    have h2 : p2 1 = 2 := by unfold p2; norm_num
    have hp := p2_pos req.i
    have h3 : (1 : ℚ) = m * 2 := by
      rw [h2, ← mul_assoc] at hm'
      exact mul_right_cancel₀ hp.ne' (by rw [one_mul]; exact hm')
    have h4 : (1 : ℤ) = m * 2 := by exact_mod_cast h3
    omega
  · intro h x hx
    exact C36_merged_cast_invisible available hk hi outs d hd q hq hw hR e he hEk (by omega) (fun _ => h) (fun hc => by rw [hS] at hc; cases hc) x hx

-- an unsigned value of five integer bits: a signed wrapping element with three integer bits sees the difference if it is alone, not beside one with four
example : ¬ ∀ x, (⟨0, 5, 0⟩ : KIF).Holds x → (FPQ.const 1 1 3 0 .TRN .WRAP).call 0
    ((mergePrecision ⟨0, 5, 0⟩ (requestList [.quant (.const 1 1 3 0 .TRN .WRAP)])).cast .TRN .WRAP x) = (FPQ.const 1 1 3 0 .TRN .WRAP).call 0 x := by
  rw [C66_wrap_iff ⟨0, 5, 0⟩ (.inl rfl) (by decide) _ _ (List.mem_singleton.2 rfl) _ (.quant _) (by decide +kernel) (.inl rfl) rfl 0 (by decide)
    (.inr rfl) (by decide)]
  decide +kernel

example : ∀ x, (⟨0, 5, 0⟩ : KIF).Holds x → (⟨[⟨1, 4, 4⟩, ⟨1, 5, 5⟩], .TRN, .WRAP⟩ : FPQ).call 0
    ((mergePrecision ⟨0, 5, 0⟩ (requestList [.quant ⟨[⟨1, 4, 4⟩, ⟨1, 5, 5⟩], .TRN, .WRAP⟩])).cast .TRN .WRAP x) =
    (⟨[⟨1, 4, 4⟩, ⟨1, 5, 5⟩], .TRN, .WRAP⟩ : FPQ).call 0 x := by
  rw [C66_wrap_iff ⟨0, 5, 0⟩ (.inl rfl) (by decide) _ _ (List.mem_singleton.2 rfl) _ (.quant _) (by decide +kernel) (.inl rfl) rfl 0 (by decide)
    (.inr rfl) (by decide)]
  decide +kernel

end HGQ
