import Verif.Props.DataPath

/-!
# C37 on a graph: what registering an input layer writes

The model's input is registered like every layer. The entry written for it is a type under which every quantizer that reads the
input computes what it computes on the raw value; an input read by anything but quantizers, or by nothing, is refused.
-/

namespace HGQ

open Spec

theorem checkConf_same : ∀ {c c' : Conf}, checkConf c = .ok c' → c' = c := by
  intro c
  induction c with
  | nil => intro c' h; simp only [checkConf, Except.ok.injEq] at h; exact h.symm
  | cons a rest ih =>
    obtain ⟨n, v⟩ := a
    have key : ∀ {c'}, (do let r ← checkConf rest; return (n, v) :: r : Except String Conf) = .ok c' → c' = (n, v) :: rest := by
      intro c' h
      cases hr : checkConf rest with
      | error e => rw [hr] at h; cases h
      | ok r =>
        rw [hr] at h
        have := ih hr
        rw [this] at h
        exact (Except.ok.inj h).symm
    intro c' h
    rw [checkConf.eq_def] at h
    simp only at h
    split_ifs at h with h1
    · split at h
      · cases h
      · split at h
        · cases h
        · split_ifs at h
          exact key h
    · exact key h

/-- **C37**, registered. If the registration of an input layer succeeds, it writes one entry, a type `t`, and every layer reading the
input is a quantizer. For rounding `TRN` or `RND` and overflow `SAT` or `WRAP`, each of them computes the same from the input stored
in the written type as from the input itself, for every value and at every element. -/
theorem C37_registered (off : Option ℤ) (s : Registry) (n : ℕ) (hin : s.graph.lay n = some .input)
    (hok : (register off s n).1 = .ok ()) : ∃ t q0, (register off s n).2.written = s.written ++ [(q0, n, plainConf t)] ∧
      s.graph.outs n ≠ [] ∧
      ∀ m ∈ s.graph.outs n, ∃ q o sh, s.graph.lay m = some (.quant q o sh) ∧
        ((q.rnd = .TRN ∨ q.rnd = .RND) → (q.sat = .SAT ∨ q.sat = .WRAP) →
          (∀ e ∈ q.elems, (e.keepNegative = 0 ∨ e.keepNegative = 1) ∧ 0 ≤ e.bits) →
          (t.kif.k = 0 ∨ t.kif.k = 1) → 1 ≤ t.kif.k + t.kif.i + t.kif.f →
          ∀ e < q.elems.length, ∀ x : ℚ, q.call e (t.kif.cast t.rnd t.sat x) = q.call e x) := by
  have hI : s.graph.isInput n = true := by unfold PGraph.isInput; rw [hin]
  -- the entry
  have hent : ∃ t q0, (s.graph.result n).1 = some t ∧ (register off s n).2.written = s.written ++ [(q0, n, plainConf t)] := by
    unfold register at hok ⊢
    simp only [hin] at hok ⊢
    split at hok
    · cases hok
    · rename_i q0 hq
      cases hc : (s.graph.config off n).1 with
      | error e => rw [hc] at hok; cases hok
      | ok conf =>
        simp only
        unfold PGraph.config at hc
        simp only [hin] at hc
        split at hc
        · cases hc
        · rename_i t ht
          simp only at hc
          exact ⟨t, q0, ht, by rw [checkConf_same hc]⟩
  obtain ⟨t, q0, ht, hw⟩ := hent
  refine ⟨t, q0, hw, ?_⟩
  unfold PGraph.result at ht
  split at ht
  · -- one homogeneous quantizer
    rename_i r hr
    simp only [Option.some.injEq] at ht
    subst ht
    obtain ⟨m, q, o, sh, h1, h2, -, -⟩ := fusible_only hr
    obtain ⟨q1, h3, h4⟩ := C67_fused_quantizer _ _ hr
    have : q1 = q := by
      unfold PGraph.downs at h3
      rw [h1, List.map_singleton, down_quant h2] at h3
      simpa using h3.symm
    subst this
    refine ⟨by rw [h1]; simp, fun m' hm' => ?_⟩
    rw [h1, List.mem_singleton] at hm'
    subst hm'
    refine ⟨q1, o, sh, h2, fun _ _ hel _ _ e he x => ?_⟩
    rw [h4 e he x]
    exact FPQ.call_idem (fun e he => ⟨(hel e he).1, .inl (hel e he).2⟩) he x
  · rename_i hr
    rw [if_pos hI] at ht
    simp only at ht
    have hd : ∃ qs, s.graph.downs n = List.map Down.quant qs ∧ qs ≠ [] := by
      unfold deriveFromNext at ht
      split at ht
      · cases ht
      · cases ht
      · rename_i hqs
        exact ⟨_, quantsOf_mem hqs, by simp⟩
    obtain ⟨qs, hqs, hne⟩ := hd
    refine ⟨?_, fun m hm => ?_⟩
    · intro h
      unfold PGraph.downs at hqs
      rw [h] at hqs
      simp at hqs
      exact hne hqs
    · have hdm : s.graph.down s.graph.length m ∈ s.graph.downs n := List.mem_map.mpr ⟨m, hm, rfl⟩
      have hq : ∃ q, s.graph.down s.graph.length m = .quant q := by
        have h := hdm
        rw [hqs] at h
        obtain ⟨q, _, h⟩ := List.mem_map.mp h
        exact ⟨q, h.symm⟩
      obtain ⟨q, hq⟩ := hq
      have hlay : ∃ o sh, s.graph.lay m = some (.quant q o sh) := by
        cases hg : s.graph.length with
        | zero => rw [hg] at hq; cases hq
        | succ k =>
          rw [hg, PGraph.down] at hq
          split at hq
          · rename_i q' o sh hl
            cases hq
            exact ⟨o, sh, hl⟩
          all_goals cases hq
      obtain ⟨o, sh, hl⟩ := hlay
      refine ⟨q, o, sh, hl, fun hR hS hel hk hb e he x => ?_⟩
      rw [hq] at hdm
      exact C37_input_cast_invisible _ t ht hb hk q hdm hR hS e he (hel _ (List.getElem_mem he)).1 (hel _ (List.getElem_mem he)).2 x

-- an input read by two quantizers with different formats and rounding; and one read by a layer that is no quantizer is refused
example : let g : PGraph := [(.input, []), (.quant ⟨[⟨1, 6, 4⟩], .TRN, .WRAP⟩ [1] [1], [0]),
      (.quant ⟨[⟨1, 6, 3⟩, ⟨1, 4, 2⟩], .RND, .WRAP⟩ [2] [2], [0])]
    (match register none ⟨g, []⟩ 0 with
     | (.ok (), s) => decide (s.written.map (fun e => (e.1, e.2.1)) = [(1, 0)] ∧
         s.written.map (fun e => (e.2.2 : Conf)) = [plainConf ⟨⟨1, 3, 4⟩, .TRN, .WRAP⟩])
     | _ => false) = true := by decide +kernel

example : (match register none ⟨[(.input, []), (.move true 1 id, [0]), (.quant ⟨[⟨1, 6, 4⟩], .TRN, .WRAP⟩ [1] [1], [1])], []⟩ 0 with
     | (.error e, s) => decide (e = "assertion" ∧ s.written.length = 0)
     | _ => false) = true := by decide +kernel

end HGQ
