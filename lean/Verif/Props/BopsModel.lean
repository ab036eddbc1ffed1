import Verif.Props.BitsFlow

/-!
C51 and C75 at the level of a whole model: which bits the sums are made of, what concatenation does position by position, and what
pooling layers report.
-/

namespace HGQ

open Spec

/-- **C75**, `PConcatenate`, position by position: `xs` are tensors with `outer · rests[j]` entries; entry `r` of row `o` of input
`j` is entry `o · (r₀ + r₁ + …) + (r₀ + … + r_{j-1}) + r` of the result, for the bits as for the values. -/
theorem C75_concat_positions {α : Type} (outer : ℕ) (rests : List ℕ) (xs : List (List α)) (hlen : rests.length = xs.length)
    (hx : ∀ (j rest : ℕ) (x : List α), rests[j]? = some rest → xs[j]? = some x → x.length = outer * rest)
    (o j rest r : ℕ) (x : List α) (ho : o < outer) (hj : rests[j]? = some rest) (hxj : xs[j]? = some x) (hr : r < rest) :
    (concatFlat outer rests xs)[o * rests.sum + (rests.take j).sum + r]? = x[o * rest + r]? := by
  -- one row
  have row : ∀ (rests : List ℕ) (xs : List (List α)) (o : ℕ), o < outer → rests.length = xs.length →
      (∀ (j rest : ℕ) (x : List α), rests[j]? = some rest → xs[j]? = some x → x.length = outer * rest) →
      ((List.zip rests xs).flatMap fun ri => (ri.2.drop (o * ri.1)).take ri.1).length = rests.sum ∧
      ∀ (j rest r : ℕ) (x : List α), rests[j]? = some rest → xs[j]? = some x → r < rest →
        ((List.zip rests xs).flatMap fun ri => (ri.2.drop (o * ri.1)).take ri.1)[(rests.take j).sum + r]? = x[o * rest + r]? := by
    intro rests
    induction rests with
    | nil =>
      intro xs o _ hl _
      cases xs with
      | nil => exact ⟨rfl, fun j rest r x hj => by simp at hj⟩
      | cons _ _ => simp at hl
    | cons r₀ rests ih =>
      intro xs o ho hl hx
      cases xs with
      | nil => simp at hl
      | cons x₀ xs =>
        obtain ⟨i1, i2⟩ := ih xs o ho (by simpa using hl) (fun j rest x h1 h2 => hx (j + 1) rest x (by simpa using h1) (by simpa using h2))
        have h0 : x₀.length = outer * r₀ := hx 0 r₀ x₀ rfl rfl
        have hseg : ((x₀.drop (o * r₀)).take r₀).length = r₀ := by
          rw [List.length_take, List.length_drop, h0, ← Nat.sub_mul]
          have : 1 * r₀ ≤ (outer - o) * r₀ := Nat.mul_le_mul_right _ (by omega)
          omega
        refine ⟨?_, ?_⟩
        · rw [List.zip_cons_cons, List.flatMap_cons, List.length_append, i1, hseg, List.sum_cons]
        · intro j rest r x hj hxj hr
          rw [List.zip_cons_cons, List.flatMap_cons]
          cases j with
          | zero =>
            simp only [List.getElem?_cons_zero, Option.some.injEq] at hj hxj
            subst hj; subst hxj
            rw [List.take_zero, List.sum_nil, Nat.zero_add, List.getElem?_append_left (by rw [hseg]; exact hr),
              List.getElem?_take_of_lt hr, List.getElem?_drop]
          | succ j =>
            rw [List.take_succ_cons, List.sum_cons, List.getElem?_append_right (by rw [hseg]; omega), hseg,
              show r₀ + (rests.take j).sum + r - r₀ = (rests.take j).sum + r by omega]
            exact i2 j rest r x (by simpa using hj) (by simpa using hxj) hr
  have hoff : (rests.take j).sum + r < rests.sum := by
    have h1 : rests.sum = (rests.take j).sum + (rests.drop j).sum := by
      rw [← List.sum_append, List.take_append_drop]
    have h2 : rests.drop j = rest :: rests.drop (j + 1) := by
      obtain ⟨hl, he⟩ := List.getElem?_eq_some_iff.mp hj
      rw [List.drop_eq_getElem_cons hl, he]
    rw [h1, h2, List.sum_cons]
    omega
  -- all rows have the same length
  have rows : ∀ (f : ℕ → List α) (m n : ℕ), (∀ o < n, (f o).length = m) → ∀ o < n, ∀ i < m,
      ((List.range n).flatMap f)[o * m + i]? = (f o)[i]? := by
    intro f m n
    induction n generalizing f with
    | zero => intro _ o ho; omega
    | succ n ih =>
      intro hf o ho i hi
      rw [List.range_succ_eq_map, List.flatMap_cons, List.flatMap_map]
      have h0 := hf 0 (by omega)
      cases o with
      | zero => rw [Nat.zero_mul, Nat.zero_add, List.getElem?_append_left (by rw [h0]; exact hi)]
      | succ o =>
        rw [List.getElem?_append_right (by rw [h0, Nat.succ_mul]; omega), h0,
          show (o + 1) * m + i - m = o * m + i by rw [Nat.succ_mul]; omega]
        exact ih (fun o => f (o + 1)) (fun o ho => hf (o + 1) (by omega)) o (by omega) i hi
  unfold concatFlat
  rw [Nat.add_assoc, rows _ rests.sum outer (fun o ho => (row rests xs o ho hlen hx).1) o ho _ hoff]
  exact (row rests xs o ho hlen hx).2 j rest r x hj hxj hr

/-- two rows of a concatenation of a 2×1 and a 2×2 tensor: entry 1 of row 1 of the second input -/
example : (concatFlat 2 [1, 2] [[10, 11], [20, 21, 22, 23]])[1 * 3 + 1 + 1]? = [20, 21, 22, 23][1 * 2 + 1]? :=
  C75_concat_positions 2 [1, 2] [[10, 11], [20, 21, 22, 23]] rfl (by
    intro j rest x hj hx
    match j with
    | 0 => cases hj; cases hx; rfl
    | 1 => cases hj; cases hx; rfl
    | (j + 2) => simp at hj) 1 1 2 1 [20, 21, 22, 23] (by decide) rfl rfl (by decide)

/-- **C75**, pooling layers (max and average): the bits reported for output `p` are the largest of the bits reported for the
positions in its window. -/
theorem C75_pool_bits (nd : Node) (n : ℕ) (wins : ℕ → List ℕ) (calls : ℕ) (s : QState) (env : List (Except String (List ℤ)))
    (i : ℕ) (bs : List ℤ) (hc : calls ≤ 1) (hb : env[i]? = some (.ok bs)) :
    ∃ out, actBitsOf nd (.pool n wins) calls s env [i] = .ok out ∧ out.length = n ∧
      ∀ p < n, wins p ≠ [] → IsGreatest {b | ∃ k ∈ wins p, b = bs.getD k 0} (out.getD p 0) := by
  refine ⟨maxPool n wins bs, ?_, by simp [maxPool], ?_⟩
  · have : lastBits calls env [i] = .ok bs := by
      unfold lastBits
      rw [if_neg (by omega)]
      simp [List.getD_eq_getElem?_getD, hb]
    simp [actBitsOf, this, bind, Except.bind, pure, Except.pure]
  · intro p hp hne
    have hout : (maxPool n wins bs).getD p 0 = ((wins p).map fun i => bs.getD i 0).foldr max (bs.getD ((wins p).headD 0) 0) := by
      simp [maxPool, List.getD_eq_getElem?_getD, hp]
    rw [hout]
    constructor
    · rcases List.mem_cons.mp (foldr_max_mem (bs.getD ((wins p).headD 0) 0) ((wins p).map fun i => bs.getD i 0)) with h | h
      · refine ⟨(wins p).headD 0, ?_, h⟩
        cases hwp : wins p with
        | nil => exact absurd hwp hne
        | cons a l => simp
      · obtain ⟨k, hk, he⟩ := List.mem_map.mp h
        exact ⟨k, hk, he.symm⟩
    · rintro b ⟨k, hk, rfl⟩
      have gen : ∀ (l : List ℤ) (a : ℤ), ∀ x ∈ l, x ≤ l.foldr max a := by
        intro l a
        induction l with
        | nil => simp
        | cons y l ih =>
          intro x hx
          rcases List.mem_cons.mp hx with rfl | hx
          · exact le_max_left _ _
          · exact (ih x hx).trans (le_max_right _ _)
      exact gen _ _ _ (List.mem_map.mpr ⟨k, hk, rfl⟩)

/-- **C51**, in a model: the BOPs of a layer that is called once on one tensor are made of the bits reported for this tensor and
of the bits of its own weights. -/
theorem C51_in_model (net : Net) (m : BopsModel) (fl : ℚ → ℚ) (i j : ℕ) (ss : List LState) (L : LinLayer) (inBits : List ℤ)
    (hL : net[i]? = some (.linear L, [j])) (hcalls : m.calls[i]? = some 1)
    (hin : (actBitsEnv net m.bw m.calls ss
      (List.replicate m.nInputs (.error "'InputLayer' object has no attribute 'act_bw_exact'")))[j]? = some (.ok inBits)) :
    (∀ lead cin cout n, m.bops[i]? = some (.dense n) → L.IsDense lead cin cout →
      net.exactBops m fl i ss = .ok ((∑ r ∈ Finset.range (prodL lead), ∑ c ∈ Finset.range cout, ∑ k ∈ Finset.range cin,
        inBits.getD (r * cin + k) 0 * (L.kernelBits fl n).getD (k * cout + c) 0 : ℤ) : ℚ)) ∧
    (∀ d cinK cout groups n pf, m.bops[i]? = some (.conv n pf) → L.IsConv1 d cinK cout groups →
      net.exactBops m fl i ss = .ok (((∑ o ∈ Finset.range d.out, ∑ c ∈ Finset.range cout,
        conv1 d.inp cinK groups d.kernel cout d.stride d.dilation d.padLo (fun i => inBits.getD i 0)
          (fun j => (L.kernelBits fl n).getD j 0) o c : ℤ) : ℚ) * pf / d.out)) ∧
    (∀ d e cinK cout groups n pf, m.bops[i]? = some (.conv n pf) → L.IsConv2 d e cinK cout groups →
      net.exactBops m fl i ss = .ok (((∑ o ∈ Finset.range d.out, ∑ o' ∈ Finset.range e.out, ∑ c ∈ Finset.range cout,
        conv2 d.inp e.inp cinK groups d.kernel e.kernel cout d.stride e.stride d.dilation e.dilation d.padLo e.padLo
          (fun i => inBits.getD i 0) (fun j => (L.kernelBits fl n).getD j 0) o o' c : ℤ) : ℚ) * pf / (d.out * e.out : ℕ))) := by
  have key : ∀ r, m.bops[i]? = some r → net.exactBops m fl i ss = (Node.linear L).exactBops r fl (.ok inBits) := by
    intro r hr
    have hl : lastBits 1 (actBitsEnv net m.bw m.calls ss
        (List.replicate m.nInputs (.error "'InputLayer' object has no attribute 'act_bw_exact'"))) [j] = .ok inBits := by
      unfold lastBits
      rw [if_neg (by omega)]
      simp [List.getD_eq_getElem?_getD, hin]
    unfold Net.exactBops
    rw [hL, hr, hcalls]
    dsimp only
    rw [hl]
  refine ⟨fun lead cin cout n hr h => ?_, fun d cinK cout groups n pf hr h => ?_, fun d e cinK cout groups n pf hr h => ?_⟩
  · rw [key _ hr, C51_dense L lead cin cout n h fl inBits]
  · rw [key _ hr, C51_conv1d L d cinK cout groups n pf h fl inBits]
  · rw [key _ hr, C51_conv2d L d e cinK cout groups n pf h fl inBits]

/-- the hypotheses of `C51_in_model` hold of the dense layer of `exBopsNet`, and its BOPs are not 0 -/
example : (exBopsNet[1]?.map fun ni => ni.2) = some [1] ∧ exBopsModel.calls[1]? = some 1 ∧
    ((actBitsEnv exBopsNet exBopsModel.bw exBopsModel.calls exBopsStates
      (List.replicate exBopsModel.nInputs (.error "")))[1]?.map
        fun e => match e with | .ok b => b | .error _ => []) = some [3, 3] ∧
    (match exBopsNet.exactBops exBopsModel id 1 exBopsStates with | .ok b => b | .error _ => -1) = 15 := by
  decide +kernel

/-- the hypotheses of `C75_pool_bits` hold: two windows over four positions -/
example : (match actBitsOf (.passive (concatFlat 1 [])) (.pool 2 fun p => [2 * p, 2 * p + 1]) 1 ⟨fun _ => 0, fun _ => ⊤, fun _ => ⊥⟩
      [.ok [3, 1, 2, 5]] [0] with | .ok b => b | .error _ => []) = [3, 5] := by
  decide +kernel

end HGQ
