import Verif.Lemmas.ConvertWhole
import Verif.Props.Convert

/-!
C69: what flattening computes for nested models and layers with any number of outputs.
-/

namespace HGQ.Convert

variable {α V : Type}

/-- **C69**, what happens to nested models with several outputs: flattening gives the model in which every reference to one tensor of a
call is read as a reference to all tensors of the call (`WholeEval`). Layers and nested models may have any number of outputs. -/
theorem C69_all_outputs (ar : α → ℕ) (sem : α → List V → Option (List V))
    (hlen : ∀ op vs ys, sem op vs = some ys → ys.length = ar op) (inputs : List ℕ) (nodes : NodeTab α) (outputs : List (ℕ × ℕ))
    (hb : BuiltOK (.model inputs nodes outputs)) (fuel : ℕ) (p : Prog α) (ren : List (ℕ × String))
    (hp : convert ar idXf fuel inputs nodes outputs = .ok (p, ren)) (xs ys : List V)
    (hev : WholeEval sem (.model inputs nodes outputs) xs ys) : p.eval sem xs = some ys := by
  have hinl : inputs.length = xs.length := by
    cases hev with | model _ _ _ _ _ v w hin => simpa using congrArg List.length hin
  obtain ⟨N, hN⟩ := apply_whole sem xs ar idXf (fun _ _ _ => rfl) hlen hev hb
  obtain ⟨outs, s', E', k1, k2, -, k4⟩ := hN (max N fuel) (le_max_left _ _) true [] ((List.range inputs.length).map Ref.inp)
    ⟨[], [], []⟩ [] (by simp [evalCalls]) (by rw [hinl]; exact range_inp xs)
  obtain ⟨s, hs, hc, -⟩ := convert_ok_iff.mp hp
  have := applyLayer_mono ar idXf fuel (max N fuel) (le_max_right _ _) _ _ _ _ _ _ hs
  rw [this] at k1
  simp only [Except.ok.injEq, Prod.mk.injEq] at k1
  obtain ⟨h1, h2⟩ := k1
  unfold Prog.eval
  rw [← hc, h2, k2, h1]
  exact k4

/-- … and flattening succeeds on every model that has such a function on some input. -/
theorem C69_all_outputs_succeeds (ar : α → ℕ) (sem : α → List V → Option (List V))
    (hlen : ∀ op vs ys, sem op vs = some ys → ys.length = ar op) (inputs : List ℕ) (nodes : NodeTab α) (outputs : List (ℕ × ℕ))
    (hb : BuiltOK (.model inputs nodes outputs)) (xs ys : List V) (hev : WholeEval sem (.model inputs nodes outputs) xs ys) :
    ∃ N, ∀ fuel, N ≤ fuel → ∃ p ren, convert ar idXf fuel inputs nodes outputs = .ok (p, ren) := by
  have hinl : inputs.length = xs.length := by
    cases hev with | model _ _ _ _ _ v w hin => simpa using congrArg List.length hin
  obtain ⟨N, hN⟩ := apply_whole sem xs ar idXf (fun _ _ _ => rfl) hlen hev hb
  refine ⟨N, fun fuel hf => ?_⟩
  obtain ⟨outs, s', E', k1, -⟩ := hN fuel hf true [] ((List.range inputs.length).map Ref.inp)
    ⟨[], [], []⟩ [] (by simp [evalCalls]) (by rw [hinl]; exact range_inp xs)
  exact ⟨⟨s'.calls, outs⟩, s'.renamed, convert_ok_iff.mpr ⟨s', k1, rfl, rfl⟩⟩

/-- **C69** fails for all models of this form: a model whose output is output `k` of a model with outputs `zs` is flattened, for every
`k`, to a model with all the outputs `zs`. -/
theorem C69_selected_output (ar : α → ℕ) (sem : α → List V → Option (List V))
    (hlen : ∀ op vs ys, sem op vs = some ys → ys.length = ar op) (inner : Lay α) (hb : BuiltOK inner) (k fuel : ℕ) (p : Prog α)
    (ren : List (ℕ × String)) (hp : convert ar idXf fuel [0] [(1, inner, [(0, 0)])] [(1, k)] = .ok (p, ren)) (x : V) (zs : List V)
    (hev : WholeEval sem inner [x] zs) : p.eval sem [x] = some zs := by
  have hfind : ∀ n l args, NodeTab.find [(1, inner, [(0, 0)])] n = some (l, args) → n = 1 ∧ l = inner ∧ args = [(0, 0)] := by
    intro n l args h
    have := find_entry h
    simp only [List.mem_singleton, Prod.mk.injEq] at this
    exact this
  refine C69_all_outputs ar sem hlen [0] [(1, inner, [(0, 0)])] [(1, k)] ?_ fuel p ren hp [x] zs ?_
  · refine .model _ _ _ ⟨?_, id, ?_⟩ ?_
    · intro n hn
      cases hn with
      | output o ho =>
        simp only [List.mem_singleton] at ho
        subst ho
        right; rfl
      | parent n l args a _ hf ha =>
        obtain ⟨-, -, rfl⟩ := hfind _ _ _ hf
        simp only [List.mem_singleton] at ha
        subst ha
        left; simp
    · intro n l args hf a ha
      obtain ⟨rfl, -, rfl⟩ := hfind _ _ _ hf
      simp only [List.mem_singleton] at ha
      subst ha
      exact Nat.zero_lt_one
    · intro n l args hf
      obtain ⟨-, rfl, -⟩ := hfind _ _ _ hf
      exact hb
  · refine .model _ _ _ _ _ (fun n => if n = 0 then [x] else zs) (fun _ => [x]) rfl ?_ ?_ rfl
    · intro n l args _ _ hf
      obtain ⟨rfl, rfl, rfl⟩ := hfind _ _ _ hf
      rfl
    · intro n l args _ _ hf
      obtain ⟨rfl, rfl, rfl⟩ := hfind _ _ _ hf
      exact hev

/-! Non-vacuity: the nested model with the outputs `x + 1` and `x + 2` -/

theorem find_twoOut {m : ℕ} {l : Lay ℕ} {args : List (ℕ × ℕ)}
    (h : NodeTab.find [(1, .leaf 1 "a" 1, [(0, 0)]), (2, .leaf 2 "b" 2, [(0, 0)])] m = some (l, args)) :
    args = [(0, 0)] ∧ ((m = 1 ∧ l = .leaf 1 "a" 1) ∨ (m = 2 ∧ l = .leaf 2 "b" 2)) := by
  have := find_entry h
  simp only [List.mem_cons, Prod.mk.injEq, List.not_mem_nil, or_false] at this
  rcases this with ⟨h1, h2, h3⟩ | ⟨h1, h2, h3⟩
  · exact ⟨h3, .inl ⟨h1, h2⟩⟩
  · exact ⟨h3, .inr ⟨h1, h2⟩⟩

theorem twoOut_built : BuiltOK twoOut := by
  refine .model _ _ _ ⟨?_, id, ?_⟩ ?_
  · intro n hn
    cases hn with
    | output o ho =>
      right
      simp only [List.mem_cons, List.not_mem_nil, or_false] at ho
      rcases ho with rfl | rfl <;> rfl
    | parent n l args a _ hf ha =>
      obtain ⟨rfl, -⟩ := find_twoOut hf
      simp only [List.mem_singleton] at ha
      subst ha
      left; simp
  · intro n l args hf a ha
    obtain ⟨rfl, h⟩ := find_twoOut hf
    simp only [List.mem_singleton] at ha
    subst ha
    rcases h with ⟨rfl, -⟩ | ⟨rfl, -⟩ <;> simp
  · intro n l args hf
    obtain ⟨-, ⟨-, rfl⟩ | ⟨-, rfl⟩⟩ := find_twoOut hf <;> exact .leaf _ _ _

theorem twoOut_whole (x : ℕ) : WholeEval addSem twoOut [x] [x + 1, x + 2] := by
  refine .model _ _ _ _ _ (fun n => if n = 0 then [x] else [x + n]) (fun _ => [x]) rfl ?_ ?_ rfl
  · intro n l args _ _ hf
    obtain ⟨rfl, -⟩ := find_twoOut hf
    rfl
  · intro n l args _ _ hf
    obtain ⟨-, ⟨rfl, rfl⟩ | ⟨rfl, rfl⟩⟩ := find_twoOut hf <;> exact .leaf _ _ _ _ _ rfl

example (x k fuel : ℕ) (p : Prog ℕ) (ren : List (ℕ × String))
    (hp : convert (fun _ => 1) idXf fuel [0] [(1, twoOut, [(0, 0)])] [(1, k)] = .ok (p, ren)) :
    p.eval addSem [x] = some [x + 1, x + 2] :=
  C69_selected_output (fun _ => 1) addSem (fun op vs ys h => by
    unfold addSem at h; split at h <;> cases h; rfl) twoOut twoOut_built k fuel p ren hp x _ (twoOut_whole x)

example : ∃ p ren, convert (fun _ => 1) idXf 10 [0] [(1, twoOut, [(0, 0)])] [(1, 1)] = .ok (p, ren) := ⟨_, _, rfl⟩

end HGQ.Convert
