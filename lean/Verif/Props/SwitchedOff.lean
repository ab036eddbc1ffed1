import Verif.Spec.SwitchedOff
import Verif.Props.Shared

/-!
C100: exactly which layers lose their BOPs regularisation.
-/

namespace HGQ
open Spec

/-- what the bit counts of the first `n` layers say about the layers, compared with the model in which every layer is called once -/
structure BwInv (net : Net) (m : BopsModel) (n : ℕ) (env env1 : List (Except String (List EF))) : Prop where
  len : env.length = m.nInputs + n
  len1 : env1.length = m.nInputs + n
  input : ∀ i, i < m.nInputs → ∃ e, e ≠ reusedMsg ∧ env[i]? = some (.error e)
  ok : ∀ j b, env[m.nInputs + j]? = some (.ok b) → env1[m.nInputs + j]? = some (.ok b) ∧ ¬ SwitchedOff net m j
  err : ∀ j, env[m.nInputs + j]? = some (.error reusedMsg) → SwitchedOff net m j

theorem BwInv.getD_ok {net : Net} {m : BopsModel} {n : ℕ} {env env1 : List (Except String (List EF))} (h : BwInv net m n env env1)
    {i : ℕ} {e : String} {b : List EF} (hi : env.getD i (.error e) = .ok b) :
    env1.getD i (.error e) = .ok b ∧ ∀ j, i = m.nInputs + j → ¬ SwitchedOff net m j := by
  rw [List.getD_eq_getElem?_getD] at hi ⊢
  cases hg : env[i]? with
  | none => rw [hg] at hi; cases hi
  | some x =>
    rw [hg] at hi
    simp only [Option.getD_some] at hi
    subst hi
    rcases Nat.lt_or_ge i m.nInputs with hlt | hge
    · obtain ⟨e, -, he⟩ := h.input i hlt
      rw [hg] at he; cases he
    · obtain ⟨j, rfl⟩ := Nat.exists_eq_add_of_le hge
      obtain ⟨h1, h2⟩ := h.ok j b hg
      rw [h1]
      exact ⟨rfl, fun k hk => by rw [show k = j by omega]; exact h2⟩

theorem BwInv.getD_err {net : Net} {m : BopsModel} {n : ℕ} {env env1 : List (Except String (List EF))} (h : BwInv net m n env env1)
    {i : ℕ} {e : String} (he : e ≠ reusedMsg) (hi : env.getD i (.error e) = .error reusedMsg) :
    ∃ j, i = m.nInputs + j ∧ SwitchedOff net m j := by
  rw [List.getD_eq_getElem?_getD] at hi
  cases hg : env[i]? with
  | none => rw [hg] at hi; simp only [Option.getD_none, Except.error.injEq] at hi; exact absurd hi he
  | some x =>
    rw [hg] at hi
    simp only [Option.getD_some] at hi
    subst hi
    rcases Nat.lt_or_ge i m.nInputs with hlt | hge
    · obtain ⟨e, hne, he⟩ := h.input i hlt
      rw [hg] at he; cases he; exact absurd rfl hne
    · obtain ⟨j, rfl⟩ := Nat.exists_eq_add_of_le hge
      exact ⟨j, rfl, h.err j hg⟩

theorem mapM_getD_ok {net : Net} {m : BopsModel} {n : ℕ} {env env1 : List (Except String (List EF))} (h : BwInv net m n env env1) :
    ∀ {ins : List ℕ} {bs : List (List EF)}, ins.mapM (fun i => env.getD i (.error "no such layer")) = .ok bs →
    ins.mapM (fun i => env1.getD i (.error "no such layer")) = .ok bs ∧ ∀ k, m.nInputs + k ∈ ins → ¬ SwitchedOff net m k := by
  intro ins
  induction ins with
  | nil => intro bs hb; exact ⟨hb, by simp⟩
  | cons i ins ih =>
    intro bs hb
    rw [List.mapM_cons] at hb ⊢
    cases hi : env.getD i (.error "no such layer") with
    | error e => rw [hi] at hb; cases hb
    | ok b =>
      obtain ⟨h1, h2⟩ := h.getD_ok hi
      rw [hi] at hb
      rw [h1]
      cases hm : ins.mapM (fun i => env.getD i (.error "no such layer")) with
      | error e => rw [hm] at hb; cases hb
      | ok bs' =>
        rw [hm] at hb
        obtain ⟨h3, h4⟩ := ih hm
        rw [h3]
        refine ⟨hb, fun k hk => ?_⟩
        rcases List.mem_cons.mp hk with hk | hk
        · exact h2 k hk.symm
        · exact h4 k hk

theorem mapM_getD_err {net : Net} {m : BopsModel} {n : ℕ} {env env1 : List (Except String (List EF))} (h : BwInv net m n env env1) :
    ∀ {ins : List ℕ}, ins.mapM (fun i => env.getD i (.error "no such layer")) = .error reusedMsg →
    ∃ k, m.nInputs + k ∈ ins ∧ SwitchedOff net m k := by
  intro ins
  induction ins with
  | nil => intro hb; cases hb
  | cons i ins ih =>
    intro hb
    rw [List.mapM_cons] at hb
    cases hi : env.getD i (.error "no such layer") with
    | error e =>
      rw [hi] at hb
      cases hb
      obtain ⟨k, rfl, hk⟩ := h.getD_err (by decide) hi
      exact ⟨k, by simp, hk⟩
    | ok b =>
      rw [hi] at hb
      cases hm : ins.mapM (fun i => env.getD i (.error "no such layer")) with
      | error e =>
        rw [hm] at hb
        cases hb
        obtain ⟨k, h1, h2⟩ := ih hm
        exact ⟨k, by simp [h1], h2⟩
      | ok bs' => rw [hm] at hb; cases hb

theorem inputBw_spec {net : Net} {m : BopsModel} {n : ℕ} {env env1 : List (Except String (List EF))} (h : BwInv net m n env env1)
    {c : ℕ} {ins : List ℕ} : (∀ b, inputBw c env ins = .ok (some b) → c ≤ 1 ∧ inputBw 1 env1 ins = .ok (some b)) ∧
    (inputBw c env ins = .error reusedMsg → 2 ≤ c) := by
  unfold inputBw
  rw [if_neg (by omega : ¬ 1 < 1)]
  by_cases hc : 1 < c
  · rw [if_pos hc]
    exact ⟨fun b hb => (by cases hb), fun _ => hc⟩
  · rw [if_neg hc]
    refine ⟨?_, ?_⟩
    · intro b hb
      refine ⟨by omega, ?_⟩
      match ins, hb with
      | [i], hb =>
        dsimp only at hb ⊢
        cases hi : env.getD i (.error "no such layer") with
        | error e => rw [hi] at hb; dsimp only at hb; split_ifs at hb; cases hb
        | ok b' =>
          rw [hi] at hb
          rw [(h.getD_ok hi).1]
          exact hb
    · intro hb
      exfalso
      match ins, hb with
      | [i], hb =>
        dsimp only at hb
        cases hi : env.getD i (.error "no such layer") with
        | error e =>
          rw [hi] at hb
          dsimp only at hb
          split_ifs at hb with he
          simp only [Except.error.injEq] at hb
          exact he hb
        | ok b' => rw [hi] at hb; cases hb

theorem lastBw_spec {net : Net} {m : BopsModel} {n : ℕ} {env env1 : List (Except String (List EF))} (h : BwInv net m n env env1)
    {c : ℕ} {ins : List ℕ} : (∀ b, lastBw c env ins = .ok b → c ≤ 1 ∧ lastBw 1 env1 ins = .ok b) ∧
    (lastBw c env ins = .error reusedMsg → 2 ≤ c) := by
  obtain ⟨h1, h2⟩ := inputBw_spec h (c := c) (ins := ins)
  unfold lastBw
  cases hi : inputBw c env ins with
  | error e => exact ⟨fun b hb => (by cases hb), fun hb => h2 (by rw [hi]; cases hb; rfl)⟩
  | ok o =>
    cases o with
    | none =>
      refine ⟨fun b hb => (by cases hb), fun hb => ?_⟩
      have : (Except.error "None has no shape" : Except String (List EF)) = .error reusedMsg := hb
      simp only [Except.error.injEq] at this
      exact absurd this (by decide)
    | some b =>
      obtain ⟨g1, g2⟩ := h1 b hi
      refine ⟨fun b' hb => ⟨g1, by rw [g2]; exact hb⟩, fun hb => (by cases hb)⟩

theorem actBwOf_spec {net : Net} {m : BopsModel} {n : ℕ} {env env1 : List (Except String (List EF))} (h : BwInv net m n env env1)
    {nd : Node} {ins : List ℕ} {r : BwRule} {c : ℕ} {s : QState} (hnd : net[n]? = some (nd, ins)) (hr : m.bw[n]? = some r)
    (hc : m.calls[n]? = some c) :
    (∀ b, actBwOf nd r c s env ins = .ok b → actBwOf nd r 1 s env1 ins = .ok b ∧ ¬ SwitchedOff net m n) ∧
    (actBwOf nd r c s env ins = .error reusedMsg → SwitchedOff net m n) := by
  -- a layer without quantizer is switched off only by several calls, or by its inputs if it is a concatenation
  have hoff : SwitchedOff net m n → (2 ≤ c ∧ (∀ b, r ≠ .layer b) ∧ ∀ bits, r ≠ .signature bits) ∨
      (∃ o rs k, r = .concat o rs ∧ m.nInputs + k ∈ ins ∧ SwitchedOff net m k) := by
    intro h
    cases h with
    | reused _ r' c' h1 h2 h3 h4 h5 =>
      rw [hr] at h1; cases h1
      rw [hc] at h4; cases h4
      exact .inl ⟨h5, h2, h3⟩
    | concat _ k nd' ins' o rs h1 h2 h3 h4 =>
      rw [hr] at h1; cases h1
      rw [hnd] at h2; cases h2
      exact .inr ⟨o, rs, k, rfl, h3, h4⟩
  cases r with
  | layer posOnly =>
    refine ⟨fun b hb => ⟨hb, fun ho => ?_⟩, fun hb => ?_⟩
    · rcases hoff ho with ⟨-, h1, -⟩ | ⟨_, _, _, h1, -⟩
      · exact h1 _ rfl
      · cases h1
    · exfalso
      unfold actBwOf at hb
      cases hs : nd.site with
      | none =>
        rw [hs] at hb
        simp only [Except.error.injEq] at hb
        exact absurd hb (by decide)
      | some q => rw [hs] at hb; cases hb
  | signature bits =>
    refine ⟨fun b hb => ⟨hb, fun ho => ?_⟩, fun hb => (by cases hb)⟩
    rcases hoff ho with ⟨-, -, h1⟩ | ⟨_, _, _, h1, -⟩
    · exact h1 _ rfl
    · cases h1
  | reshape =>
    obtain ⟨h1, h2⟩ := lastBw_spec h (c := c) (ins := ins)
    refine ⟨fun b hb => ⟨(h1 b hb).2, fun ho => ?_⟩, fun hb => ?_⟩
    · have := (h1 b hb).1
      rcases hoff ho with ⟨h1, -⟩ | ⟨_, _, _, h1, -⟩
      · omega
      · cases h1
    · exact .reused n _ c hr (by simp) (by simp) hc (h2 hb)
  | pool k wins =>
    obtain ⟨h1, h2⟩ := lastBw_spec h (c := c) (ins := ins)
    unfold actBwOf
    cases hl : lastBw c env ins with
    | error e =>
      refine ⟨fun b hb => (by cases hb), fun hb => ?_⟩
      exact .reused n _ c hr (by simp) (by simp) hc (h2 (by rw [hl]; cases hb; rfl))
    | ok x =>
      obtain ⟨g1, g2⟩ := h1 x hl
      dsimp only
      rw [g2]
      refine ⟨fun b hb => ⟨hb, fun ho => ?_⟩, fun hb => (by cases hb)⟩
      rcases hoff ho with ⟨h1, -⟩ | ⟨_, _, _, h1, -⟩
      · omega
      · cases h1
  | concat o rs =>
    unfold actBwOf
    dsimp only
    by_cases h2 : 1 < c
    · rw [if_pos h2]
      refine ⟨fun b hb => (by cases hb), fun _ => .reused n _ c hr (by simp) (by simp) hc h2⟩
    · rw [if_neg h2, if_neg (by omega : ¬ 1 < 1)]
      cases hm : ins.mapM (fun i => env.getD i (.error "no such layer")) with
      | error e =>
        refine ⟨fun b hb => (by cases hb), fun hb => ?_⟩
        obtain ⟨k, g1, g2⟩ := mapM_getD_err h (ins := ins) (by rw [hm]; cases hb; rfl)
        exact .concat n k nd ins o rs hr hnd g1 g2
      | ok bs =>
        obtain ⟨g1, g2⟩ := mapM_getD_ok h hm
        rw [g1]
        refine ⟨fun b hb => ⟨hb, fun ho => ?_⟩, fun hb => (by cases hb)⟩
        rcases hoff ho with ⟨h1, -⟩ | ⟨_, _, k, -, h1, h3⟩
        · omega
        · exact g2 k h1 h3

theorem actBwEnvE_inv (net : Net) (m : BopsModel) : ∀ (net' : Net) (rs : List BwRule) (cs : List ℕ) (ss : List LState) (n : ℕ)
    (env env1 : List (Except String (List EF))), net.drop n = net' → m.bw.drop n = rs → m.calls.drop n = cs →
    BwInv net m n env env1 →
    ∃ n', BwInv net m n' (actBwEnvE net' rs cs ss env) (actBwEnvE net' rs (cs.map fun _ => 1) ss env1)
  | (nd, ins) :: net', r :: rs, c :: cs, s :: ss, n, env, env1, h1, h2, h3, h => by
    have head : ∀ {α : Type} {l t : List α} {a : α}, l.drop n = a :: t → l[n]? = some a ∧ l.drop (n + 1) = t := by
      intro α l t a e
      constructor
      · have := congrArg (fun l => l[0]?) e
        simpa using this
      · rw [← List.drop_drop, e]; rfl
    obtain ⟨a1, b1⟩ := head h1
    obtain ⟨a2, b2⟩ := head h2
    obtain ⟨a3, b3⟩ := head h3
    obtain ⟨g1, g2⟩ := actBwOf_spec h (s := s.q) a1 a2 a3
    rw [List.map_cons]
    unfold actBwEnvE
    refine actBwEnvE_inv net m net' rs cs ss (n + 1) _ _ b1 b2 b3 ⟨?_, ?_, ?_, ?_, ?_⟩
    · simp [h.len]; omega
    · simp [h.len1]; omega
    · intro i hi
      rw [List.getElem?_append_left (by rw [h.len]; omega)]
      exact h.input i hi
    · intro j b hj
      rcases Nat.lt_trichotomy j n with hlt | rfl | hgt
      · rw [List.getElem?_append_left (by rw [h.len]; omega)] at hj
        rw [List.getElem?_append_left (by rw [h.len1]; omega)]
        exact h.ok j b hj
      · rw [List.getElem?_append_right (by rw [h.len]), h.len, Nat.sub_self] at hj
        rw [List.getElem?_append_right (by rw [h.len1]), h.len1, Nat.sub_self]
        simp only [List.getElem?_cons_zero, Option.some.injEq] at hj ⊢
        exact g1 b hj
      · rw [List.getElem?_eq_none (by simp [h.len]; omega)] at hj
        cases hj
    · intro j hj
      rcases Nat.lt_trichotomy j n with hlt | rfl | hgt
      · rw [List.getElem?_append_left (by rw [h.len]; omega)] at hj
        exact h.err j hj
      · rw [List.getElem?_append_right (by rw [h.len]), h.len, Nat.sub_self] at hj
        simp only [List.getElem?_cons_zero, Option.some.injEq] at hj
        exact g2 hj
      · rw [List.getElem?_eq_none (by simp [h.len]; omega)] at hj
        cases hj
  | [], _, _, _, n, _, _, _, _, _, h => ⟨n, by simpa [actBwEnvE] using h⟩
  | _ :: _, [], _, _, n, _, _, _, _, _, h => ⟨n, by simpa [actBwEnvE] using h⟩
  | _ :: _, _ :: _, [], _, n, _, _, _, _, _, h => ⟨n, by simpa [actBwEnvE] using h⟩
  | _ :: _, _ :: _, _ :: _, [], n, _, _, _, _, _, h => ⟨n, by simpa [actBwEnvE] using h⟩

/-- **C100**, exactly: in a model that can be called, a dense or convolution layer behind layer `j` adds the loss it adds when every
layer is called once, unless `j` is `SwitchedOff` — a passive layer called several times, or concatenated from one. Then it adds nothing,
whatever `beta`, the kernels and the recorded ranges are. -/
theorem C100_exact (net : Net) (m : BopsModel) (beta : ℚ) (ss : List LState) (i j : ℕ) (nd : Node) (v : EF)
    (hi : net[i]? = some (nd, [m.nInputs + j])) (hv : net.layerLoss m beta ss i = .ok v) :
    (¬ SwitchedOff net m j → net.layerLoss (calledOnce m) beta ss i = .ok v) ∧ (SwitchedOff net m j → v = .fin 0) := by
  obtain ⟨n', hinv⟩ := actBwEnvE_inv net m net m.bw m.calls ss 0
    (List.replicate m.nInputs (.error "'InputLayer' object has no attribute 'act_bw'"))
    (List.replicate m.nInputs (.error "'InputLayer' object has no attribute 'act_bw'")) rfl rfl rfl
    ⟨by simp, by simp, fun i hi => ⟨"'InputLayer' object has no attribute 'act_bw'", by decide,
        by rw [List.getElem?_replicate, if_pos hi]⟩,
      fun j b hj => (by rw [List.getElem?_eq_none (by simp)] at hj; cases hj),
      fun j hj => (by rw [List.getElem?_eq_none (by simp)] at hj; cases hj)⟩
  unfold Net.layerLoss at hv ⊢
  rw [hi] at hv ⊢
  simp only [calledOnce, List.getElem?_map] at hv ⊢
  cases hr : m.bops[i]? with
  | none => rw [hr] at hv; cases hv
  | some r =>
    cases hc : m.calls[i]? with
    | none => rw [hr, hc] at hv; cases hv
    | some c =>
      rw [hr, hc] at hv
      simp only [Option.map_some] at hv ⊢
      have key : ∀ f : List EF → EF, (do
          match ← inputBw c (actBwEnvE net m.bw m.calls ss
              (List.replicate m.nInputs (.error "'InputLayer' object has no attribute 'act_bw'"))) [m.nInputs + j] with
          | none => return EF.fin 0
          | some inBw => return f inBw : Except String EF) = .ok v →
          (¬ SwitchedOff net m j → (do
          match ← inputBw 1 (actBwEnvE net m.bw (m.calls.map fun _ => 1) ss
              (List.replicate m.nInputs (.error "'InputLayer' object has no attribute 'act_bw'"))) [m.nInputs + j] with
          | none => return EF.fin 0
          | some inBw => return f inBw : Except String EF) = .ok v) ∧ (SwitchedOff net m j → v = .fin 0) := by
        intro f hf
        cases hb : inputBw c (actBwEnvE net m.bw m.calls ss
              (List.replicate m.nInputs (.error "'InputLayer' object has no attribute 'act_bw'"))) [m.nInputs + j] with
        | error e => rw [hb] at hf; cases hf
        | ok o =>
          rw [hb] at hf
          have hb' := hb
          unfold inputBw at hb'
          split_ifs at hb' with hc1
          dsimp only at hb'
          cases o with
          | some b =>
            rw [((inputBw_spec hinv).1 b hb).2]
            refine ⟨fun _ => hf, fun ho => ?_⟩
            split at hb'
            · rename_i b' he
              exact absurd ho ((hinv.getD_ok he).2 j rfl)
            · split_ifs at hb'; cases hb'
          | none =>
            split at hb'
            · cases hb'
            · rename_i e he
              split_ifs at hb' with h
              subst h
              obtain ⟨k, hk, hoff⟩ := hinv.getD_err (by decide) he
              rw [show j = k by omega]
              refine ⟨fun h => absurd hoff h, fun _ => ?_⟩
              cases hf; rfl
      cases r with
      | none => exact ⟨fun _ => hv, fun _ => by cases hv; rfl⟩
      | dense k => exact key _ hv
      | conv k pf => exact key _ hv

/-! ### the count of `trace_minmax` -/

theorem lastBits_once {env env1 : List (Except String (List ℤ))}
    (h : ∀ (i : ℕ) (b : List ℤ), env[i]? = some (Except.ok b) → env1[i]? = some (Except.ok b)) {c : ℕ} {ins : List ℕ} {b : List ℤ}
    (hb : lastBits c env ins = .ok b) : lastBits 1 env1 ins = .ok b := by
  unfold lastBits at hb ⊢
  rw [if_neg (by omega : ¬ 1 < 1)]
  split_ifs at hb
  match ins, hb with
  | [i], hb =>
    dsimp only at hb ⊢
    rw [List.getD_eq_getElem?_getD] at hb ⊢
    cases hg : env[i]? with
    | none => rw [hg] at hb; cases hb
    | some x =>
      rw [hg] at hb
      simp only [Option.getD_some] at hb
      rw [h i b (by rw [hg, hb])]
      rfl

theorem mapM_bits_once {env env1 : List (Except String (List ℤ))}
    (h : ∀ (i : ℕ) (b : List ℤ), env[i]? = some (Except.ok b) → env1[i]? = some (Except.ok b)) : ∀ {ins : List ℕ} {bs : List (List ℤ)},
    ins.mapM (fun i => env.getD i (.error "no such layer")) = .ok bs →
    ins.mapM (fun i => env1.getD i (.error "no such layer")) = .ok bs := by
  intro ins
  induction ins with
  | nil => intro bs hb; exact hb
  | cons i ins ih =>
    intro bs hb
    rw [List.mapM_cons] at hb ⊢
    cases hi : env.getD i (.error "no such layer") with
    | error e => rw [hi] at hb; cases hb
    | ok b =>
      have h1 : env1.getD i (.error "no such layer") = .ok b := by
        rw [List.getD_eq_getElem?_getD] at hi ⊢
        cases hg : env[i]? with
        | none => rw [hg] at hi; cases hi
        | some x =>
          rw [hg] at hi
          simp only [Option.getD_some] at hi
          rw [h i b (by rw [hg, hi])]
          rfl
      rw [hi] at hb
      rw [h1]
      cases hm : ins.mapM (fun i => env.getD i (.error "no such layer")) with
      | error e => rw [hm] at hb; cases hb
      | ok bs' => rw [hm] at hb; rw [ih hm]; exact hb

theorem actBitsOf_once {env env1 : List (Except String (List ℤ))}
    (h : ∀ (i : ℕ) (b : List ℤ), env[i]? = some (Except.ok b) → env1[i]? = some (Except.ok b)) {nd : Node} {r : BwRule} {c : ℕ} {s : QState} {ins : List ℕ}
    {b : List ℤ} (hb : actBitsOf nd r c s env ins = .ok b) : actBitsOf nd r 1 s env1 ins = .ok b := by
  cases r with
  | layer _ => exact hb
  | signature _ => exact hb
  | reshape => exact lastBits_once h hb
  | pool k wins =>
    unfold actBitsOf at hb ⊢
    dsimp only at hb ⊢
    cases hl : lastBits c env ins with
    | error e => rw [hl] at hb; cases hb
    | ok x => rw [hl] at hb; rw [lastBits_once h hl]; exact hb
  | concat o rs =>
    unfold actBitsOf at hb ⊢
    dsimp only at hb ⊢
    cases hl : ins.mapM (fun i => env.getD i (.error "no such layer")) with
    | error e => rw [hl] at hb; cases hb
    | ok x => rw [hl] at hb; rw [mapM_bits_once h hl]; exact hb

theorem actBitsEnv_once : ∀ (net : Net) (rs : List BwRule) (cs : List ℕ) (ss : List LState) (env env1 : List (Except String (List ℤ))),
    env.length = env1.length → (∀ (i : ℕ) (b : List ℤ), env[i]? = some (Except.ok b) → env1[i]? = some (Except.ok b)) →
    ∀ (i : ℕ) (b : List ℤ), (actBitsEnv net rs cs ss env)[i]? = some (Except.ok b) →
      (actBitsEnv net rs (cs.map fun _ => 1) ss env1)[i]? = some (Except.ok b)
  | (nd, ins) :: net, r :: rs, c :: cs, s :: ss, env, env1, hl, h => by
    rw [List.map_cons]
    unfold actBitsEnv
    refine actBitsEnv_once net rs cs ss _ _ (by simp [hl]) ?_
    intro i b hi
    rcases Nat.lt_trichotomy i env.length with hlt | rfl | hgt
    · rw [List.getElem?_append_left hlt] at hi
      rw [List.getElem?_append_left (by omega)]
      exact h i b hi
    · rw [List.getElem?_append_right le_rfl, Nat.sub_self] at hi
      rw [List.getElem?_append_right (by omega), hl, Nat.sub_self]
      simp only [List.getElem?_cons_zero, Option.some.injEq] at hi ⊢
      exact actBitsOf_once h hi
    · rw [List.getElem?_eq_none (by simp; omega)] at hi
      cases hi
  | [], _, _, _, _, _, _, h => by simpa [actBitsEnv] using h
  | _ :: _, [], _, _, _, _, _, h => by simpa [actBitsEnv] using h
  | _ :: _, _ :: _, [], _, _, _, _, h => by simpa [actBitsEnv] using h
  | _ :: _, _ :: _, _ :: _, [], _, _, _, h => by simpa [actBitsEnv] using h

/-- **C100**, `trace_minmax`: it either raises at a layer or counts for it what it counts when every layer is called once. -/
theorem C100_trace_counts (net : Net) (m : BopsModel) (fl : ℚ → ℚ) (ss : List LState) (i : ℕ) (v : ℚ)
    (hv : net.exactBops m fl i ss = .ok v) : net.exactBops (calledOnce m) fl i ss = .ok v := by
  have h := actBitsEnv_once net m.bw m.calls ss
    (List.replicate m.nInputs (.error "'InputLayer' object has no attribute 'act_bw_exact'")) _ rfl (fun _ _ h => h)
  unfold Net.exactBops at hv ⊢
  simp only [calledOnce, List.getElem?_map]
  cases hn : net[i]? with
  | none => rw [hn] at hv; cases hv
  | some x =>
    obtain ⟨nd, ins⟩ := x
    cases hr : m.bops[i]? with
    | none => rw [hn, hr] at hv; cases hv
    | some r =>
      cases hc : m.calls[i]? with
      | none => rw [hn, hr, hc] at hv; cases hv
      | some c =>
        rw [hn, hr, hc] at hv
        simp only [Option.map_some] at hv ⊢
        cases hb : lastBits c (actBitsEnv net m.bw m.calls ss
            (List.replicate m.nInputs (.error "'InputLayer' object has no attribute 'act_bw_exact'"))) ins with
        | ok b => rw [hb] at hv; rw [lastBits_once h hb]; exact hv
        | error e =>
          rw [hb] at hv
          unfold Node.exactBops at hv ⊢
          split at hv
          · cases hv
          · cases hv
          · exact hv

/-! Non-vacuity -/

/-- two quantizers, their concatenation, a dense layer, and the concatenation layer again -/
def exReusedConcat : Net :=
  [(.quantize ⟨⟨0, true, some (-10, 20), fun _ => 1, 7 / 10⟩, [1], [1]⟩, [0]),
   (.quantize ⟨⟨0, true, some (-10, 20), fun _ => 1, 7 / 10⟩, [1], [1]⟩, [0]), (.passive List.flatten, [1, 2]),
   (.linear { exDense 0 [2] true with taps := denseTaps 2 2 }, [3]), (.passive List.flatten, [2, 1])]

def exReusedConcatStates : List LState :=
  [⟨⟨fun _ => 1, fun _ => ((-2 : ℚ) : WithTop ℚ), fun _ => ((3 / 2 : ℚ) : WithBot ℚ)⟩, false⟩,
   ⟨⟨fun _ => 1, fun _ => ((-2 : ℚ) : WithTop ℚ), fun _ => ((3 / 2 : ℚ) : WithBot ℚ)⟩, false⟩,
   ⟨⟨fun _ => 0, fun _ => ⊤, fun _ => ⊥⟩, false⟩,
   ⟨⟨fun _ => 2, fun _ => ((-1 : ℚ) : WithTop ℚ), fun _ => ((7 / 4 : ℚ) : WithBot ℚ)⟩, false⟩,
   ⟨⟨fun _ => 0, fun _ => ⊤, fun _ => ⊥⟩, false⟩]

def exReusedConcatModel : BopsModel :=
  ⟨1, [.layer false, .layer false, .concat 1 [1, 1], .layer true, .concat 1 [1, 1]], [.none, .none, .none, .dense 4, .none],
    [1, 1, 2, 1, 2]⟩

/-- **C100** fails for a concatenation layer called twice, and here `trace_minmax` does not raise either: the dense layer behind it adds
nothing to the loss, with the concatenation called once it adds its BOPs times `beta`; the count of `trace_minmax` is positive. -/
theorem C100_behind_reused_concatenation :
    SwitchedOff exReusedConcat exReusedConcatModel 2 ∧
    exReusedConcat.layerLoss exReusedConcatModel (1 / 100) exReusedConcatStates 3 = .ok (.fin 0) ∧
    exReusedConcat.layerLoss (calledOnce exReusedConcatModel) (1 / 100) exReusedConcatStates 3 = .ok (.fin (3 / 5)) ∧
    exReusedConcat.exactBops exReusedConcatModel id 3 exReusedConcatStates = .ok 15 :=
  ⟨.reused 2 (.concat 1 [1, 1]) 2 rfl (by simp) (by simp) rfl le_rfl, by decide +kernel, by decide +kernel, by decide +kernel⟩

-- the second half of the condition is met by the model with every layer called once
example : ¬ SwitchedOff exReusedConcat (calledOnce exReusedConcatModel) 2 := by
  have hq : ∀ k b, exReusedConcatModel.bw[k]? = some (BwRule.layer b) → ¬ SwitchedOff exReusedConcat (calledOnce exReusedConcatModel) k := by
    intro k b hk h
    cases h with
    | reused _ r c h1 h2 =>
      have : (calledOnce exReusedConcatModel).bw = exReusedConcatModel.bw := rfl
      rw [this, hk] at h1
      cases h1
      exact h2 _ rfl
    | concat _ k' nd ins o rs h1 =>
      have : (calledOnce exReusedConcatModel).bw = exReusedConcatModel.bw := rfl
      rw [this, hk] at h1
      cases h1
  intro h
  cases h with
  | reused _ r c h1 h2 h3 h4 h5 => cases h4; exact absurd h5 (by decide)
  | concat _ k nd ins o rs h1 h2 h3 h4 =>
    cases h2
    have : k = 0 ∨ k = 1 := by
      simp [calledOnce, exReusedConcatModel] at h3
      omega
    rcases this with rfl | rfl <;> exact hq _ false rfl h4

end HGQ
