import Verif.Model.Serialize
import Verif.Props.UnaryLut
import Verif.Props.Trace
import Verif.Props.Adapt

/-!
C79-C81: what saving and loading a model keeps.
-/

namespace HGQ.Serialize

/-! ### C79: settings -/

/-- Specification: the classes of the library that can be saved (those with the same constructor keywords are listed once), each with the
constructor arguments that a loaded layer does not remember. -/
def forgotten : List (Cls × List String) :=
  let bn := ["momentum", "epsilon", "center", "scale", "beta_initializer", "gamma_initializer", "moving_mean_initializer",
    "moving_variance_initializer", "beta_regularizer", "gamma_regularizer", "beta_constraint", "gamma_constraint"]
  [(HDense, ["do_adapt_kernel_bits"]), (HConvND, ["do_adapt_kernel_bits", "conv_op"]),
    (HDenseBatchNorm, "do_adapt_kernel_bits" :: bn), (HConvNDBatchNorm, ["do_adapt_kernel_bits", "conv_op"] ++ bn),
    (HQuantize, ["do_adapt_kernel_bits", "activity_regularizer"]), (HActivation, ["do_adapt_kernel_bits", "activity_regularizer"]),
    (HAdd, ["do_adapt_kernel_bits", "activity_regularizer"])]

theorem lookup_filterMap (a : Inst) (n : String) : ∀ ks : List String,
    (ks.filterMap fun k => (a k).map fun v => (k, v)).lookup n = if n ∈ ks then a n else none
  | [] => by simp
  | k :: ks => by
    rw [List.filterMap_cons]
    by_cases hk : n = k
    · subst hk
      cases ha : a n with
      | none =>
        simp only [Option.map_none]
        rw [lookup_filterMap a n ks]
        split_ifs <;> simp_all
      | some v => simp
    · cases ha : a k with
      | none =>
        simp only [Option.map_none]
        rw [lookup_filterMap a n ks]
        simp [hk]
      | some v =>
        simp only [Option.map_some]
        rw [List.lookup_cons]
        have : (n == k) = false := by simpa using hk
        rw [this]
        simp only
        rw [lookup_filterMap a n ks]
        simp [hk]

theorem lookup_isSome_of_mem {α : Type} {l : List (String × α)} {e : String × α} (h : e ∈ l) : (l.lookup e.1).isSome := by
  induction l with
  | nil => cases h
  | cons x xs ih =>
    rw [List.lookup_cons]
    cases hb : (e.1 == x.1) with
    | true => rfl
    | false =>
      rcases List.mem_cons.mp h with rfl | h
      · simp at hb
      · exact ih h

theorem store_store (dk dp dk' dp' : V) (hk : dk ≠ .none) (hp : dp ≠ .none) (n : String) (v : V) :
    store dk' dp' n (store dk dp n v) = store dk dp n v := by
  unfold store
  by_cases h1 : n = "kq_conf" ∧ v = .none
  · rw [if_pos h1, if_neg (by simp [hk]), if_neg (by simp [h1.1])]
  · rw [if_neg h1]
    by_cases h2 : n = "paq_conf" ∧ v = .none
    · rw [if_pos h2, if_neg (by simp [hp]), if_neg (by simp [hp])]
    · rw [if_neg h2, if_neg h1, if_neg h2]

/-- the constructor stores a value for every keyword -/
theorem construct_some {dk dp : V} {c : Cls} {kw : Kwargs} {a : Inst} (h : construct dk dp c kw = .ok a) (n : String) :
    (a n).isSome = ((params c).lookup n).isSome := by
  unfold construct at h
  split_ifs at h with h1 h2
  have h := Except.ok.inj h
  subst h
  dsimp only
  cases hl : (params c).lookup n with
  | none => rfl
  | some d =>
    simp only [Option.isSome_some]
    cases hkw : kw.lookup n with
    | some v => rfl
    | none =>
      have h2 := h2
      rw [List.all_eq_true] at h2
      obtain ⟨l1, l2, hsplit, -⟩ := List.lookup_eq_some_iff.mp hl
      have := h2 (n, d) (by rw [hsplit]; simp)
      rw [hkw] at this
      cases d with
      | none => simp at this
      | some v => rfl

theorem construct_stored {dk dp dk' dp' : V} (hk : dk ≠ .none) (hp : dp ≠ .none) {c : Cls} {kw : Kwargs} {a : Inst}
    (h : construct dk dp c kw = .ok a) (n : String) : (a n).map (store dk' dp' n) = a n := by
  unfold construct at h
  split_ifs at h with h1 h2
  have h := Except.ok.inj h
  subst h
  dsimp only
  cases (params c).lookup n with
  | none => rfl
  | some d =>
    cases kw.lookup n with
    | some v => simp only [Option.map_some, store_store dk dp dk' dp' hk hp]
    | none =>
      cases d with
      | none => rfl
      | some v => simp only [Option.map_some, store_store dk dp dk' dp' hk hp]

theorem reload_spec {dk dp dk' dp' : V} (hk : dk ≠ .none) (hp : dp ≠ .none) {c : Cls}
    (hkeys : ∀ k ∈ keys c, ((params c).lookup k).isSome)
    (hreq : ∀ p ∈ params c, p.2 = none → p.1 ∈ keys c) {kw : Kwargs} {a : Inst} (h : construct dk dp c kw = .ok a) :
    ∃ a', reload dk' dp' c a = .ok a' ∧ (∀ n ∈ keys c, a' n = a n) ∧
      ∀ n, n ∉ keys c → a' n = ((params c).lookup n).bind fun d => d.map (store dk' dp' n) := by
  unfold reload construct
  have hl : ∀ n, (getConfig c a).lookup n = if n ∈ keys c then a n else none := fun n => lookup_filterMap a n _
  rw [if_neg, if_neg]
  · refine ⟨_, rfl, ?_, ?_⟩
    · intro n hn
      beta_reduce
      rw [hl, if_pos hn]
      obtain ⟨d, hd⟩ := Option.isSome_iff_exists.mp (hkeys n hn)
      have hs := construct_some h n
      rw [hd] at hs
      obtain ⟨v, hv⟩ := Option.isSome_iff_exists.mp hs
      rw [hd, hv]
      have := construct_stored (dk' := dk') (dp' := dp') hk hp h n
      rw [hv] at this
      exact this
    · intro n hn
      beta_reduce
      rw [hl, if_neg hn]
      cases (params c).lookup n <;> rfl
  · rw [Classical.not_not, List.all_eq_true]
    intro p hp'
    cases hd : p.2 with
    | some v => simp
    | none =>
      rw [hl, if_pos (hreq p hp' hd), construct_some h]
      simpa using lookup_isSome_of_mem hp'
  · rw [Classical.not_not, List.all_eq_true]
    intro e he
    unfold getConfig at he
    obtain ⟨k, hk', he⟩ := List.mem_filterMap.mp he
    rw [Option.map_eq_some_iff] at he
    obtain ⟨v, -, rfl⟩ := he
    exact hkeys k hk'

theorem classes_ok : ∀ p ∈ forgotten, (∀ k ∈ keys p.1, ((params p.1).lookup k).isSome) ∧
    (∀ q ∈ params p.1, q.2 = none → q.1 ∈ keys p.1) ∧ (∀ q ∈ params p.1, q.1 ∈ keys p.1 ↔ q.1 ∉ p.2) ∧
    (∀ k ∈ p.2, k ∉ keys p.1) := by decide +kernel

/-- **C79**, settings. A layer of any class of the library, constructed with any arguments its constructor accepts, is saved and loaded. Loading
succeeds whatever the default quantizer configurations have become in the meantime; every setting has the value it had, except those listed in
`forgotten`, which are back at the constructor's defaults. -/
theorem C79_settings (c : Cls) (lost : List String) (hc : (c, lost) ∈ forgotten) (dk dp dk' dp' : V) (hk : dk ≠ .none) (hp : dp ≠ .none)
    (kw : Kwargs) (a : Inst) (h : construct dk dp c kw = .ok a) :
    ∃ a', reload dk' dp' c a = .ok a' ∧ (∀ n, n ∉ lost → a' n = a n) ∧
      ∀ n ∈ lost, ∀ base, (∀ v, (n, v) ∉ base) → ∀ d, construct dk' dp' c base = .ok d → a' n = d n := by
  obtain ⟨h1, h2, h3, h4⟩ := classes_ok _ hc
  obtain ⟨a', ha', hkeep, hdef⟩ := reload_spec (dk' := dk') (dp' := dp') hk hp h1 h2 h
  refine ⟨a', ha', ?_, ?_⟩
  · intro n hn
    by_cases hnk : n ∈ keys c
    · exact hkeep n hnk
    · have hnone : (params c).lookup n = none := by
        cases hl : (params c).lookup n with
        | none => rfl
        | some d =>
          obtain ⟨l1, l2, hsplit, -⟩ := List.lookup_eq_some_iff.mp hl
          exact absurd ((h3 (n, d) (by change _ ∈ params c; rw [hsplit]; simp)).mpr hn) hnk
      have := construct_some h n
      rw [hnone] at this
      rw [hdef n hnk, hnone]
      cases ha : a n with
      | none => rfl
      | some v => rw [ha] at this; cases this
  · intro n hn base hbase d hd
    rw [hdef n (h4 n hn)]
    unfold construct at hd
    split_ifs at hd with g1 g2
    have hd := Except.ok.inj hd
    subst hd
    dsimp only
    have hb : base.lookup n = none := by
      rw [List.lookup_eq_none_iff]
      rintro ⟨m, v⟩ he
      rw [bne_iff_ne]
      rintro rfl
      exact hbase v he
    rw [hb]
    cases (params c).lookup n <;> rfl

/-- `HDense(10, activation='relu', beta=1e-3, do_adapt_kernel_bits=False)`: the last setting is lost, the others and the configurations stay. -/
example : (match construct (.obj 1) (.obj 2) HDense [("units", .num 10), ("activation", .str "relu"), ("beta", .num (1 / 1000)),
      ("do_adapt_kernel_bits", .bool false)] with
    | .error _ => none
    | .ok a => match reload (.obj 7) (.obj 8) HDense a with
      | .error _ => none
      | .ok a' => some [a' "units", a' "activation", a' "beta", a' "kq_conf", a "do_adapt_kernel_bits", a' "do_adapt_kernel_bits"]) =
    some [some (.num 10), some (.str "relu"), some (.num (1 / 1000)), some (.obj 1), some (.bool false), some (.bool true)] := by
  decide +kernel

/-! ### C79: fused batch normalisation -/

theorem reload_bn {c : Cls} (hc : c = HDenseBatchNorm ∨ c = HConvNDBatchNorm) (a : Inst) (ha : ∀ n, (a n).isSome) :
    ∃ a', reload .none .none c a = .ok a' ∧ a' "use_bias" = a "use_bias" ∧ a' "momentum" = some (.num (99 / 100)) ∧
      a' "epsilon" = some (.num (1 / 1000)) ∧ a' "center" = some (.bool true) ∧ a' "scale" = some (.bool true) := by
  have hcl : ∃ lost, (c, lost) ∈ forgotten ∧ ∀ n ∈ ["momentum", "epsilon", "center", "scale"], n ∈ lost := by
    rcases hc with rfl | rfl
    · exact ⟨_, List.mem_of_getElem? (i := 2) rfl, by decide +kernel⟩
    · exact ⟨_, List.mem_of_getElem? (i := 3) rfl, by decide +kernel⟩
  obtain ⟨lost, hmem, hlost⟩ := hcl
  obtain ⟨h1, h2, h3, h4⟩ := classes_ok _ hmem
  unfold reload construct
  have hl : ∀ n, (getConfig c a).lookup n = if n ∈ keys c then a n else none := fun n => lookup_filterMap a n _
  rw [if_neg, if_neg]
  · refine ⟨_, rfl, ?_, ?_, ?_, ?_, ?_⟩
    · beta_reduce
      rw [hl]
      have hk : "use_bias" ∈ keys c := by rcases hc with rfl | rfl <;> decide +kernel
      have hp : (params c).lookup "use_bias" = some (some (.bool true)) := by rcases hc with rfl | rfl <;> decide +kernel
      rw [if_pos hk, hp]
      obtain ⟨v, hv⟩ := Option.isSome_iff_exists.mp (ha "use_bias")
      rw [hv]
      simp [store]
    all_goals
      beta_reduce
      rw [hl, if_neg (h4 _ (hlost _ (by simp)))]
      rcases hc with rfl | rfl <;> decide +kernel
  · rw [Classical.not_not, List.all_eq_true]
    intro p hp'
    cases hd : p.2 with
    | some v => simp
    | none => rw [hl, if_pos (h2 p hp' hd)]; simpa using ha _
  · rw [Classical.not_not, List.all_eq_true]
    intro e he
    unfold getConfig at he
    obtain ⟨k, hk', he⟩ := List.mem_filterMap.mp he
    rw [Option.map_eq_some_iff] at he
    obtain ⟨v, -, rfl⟩ := he
    exact h1 k hk'

theorem reloadBN_eq (c : Cls) (hc : c = HDenseBatchNorm ∨ c = HConvNDBatchNorm) (tr ntr : List (List ℕ)) (u : ℕ) (b : BNLayer) :
    reloadBN c tr ntr u b = (weightsLoad (bnSlots tr ntr u b.useBias b.center b.scale) (bnSlots tr ntr u b.useBias true true)).bind
      fun _ => .ok { b with momentum := 99 / 100, eps := 1 / 1000, center := b.useBias, scale := true } := by
  unfold reloadBN
  dsimp only
  obtain ⟨a', h0, h1, h2, h3, h4, h5⟩ := reload_bn hc (fun n =>
    if n = "momentum" then some (.num b.momentum) else if n = "epsilon" then some (.num b.eps)
    else if n = "center" then some (.bool b.center) else if n = "scale" then some (.bool b.scale)
    else if n = "use_bias" then some (.bool b.useBias)
    else if n = "units" ∨ n = "filters" then some (.num u) else if n = "kernel_size" then some (.obj 0) else some .none)
    (fun n => by split_ifs <;> rfl)
  rw [h0]
  have h1 : a' "use_bias" = some (.bool b.useBias) := by rw [h1]; simp
  simp only [bind, Except.bind, h1, h2, h3, h4, h5, Option.getD_some, V.truthy, V.toNum, Bool.true_and]
  cases weightsLoad (bnSlots tr ntr u b.useBias b.center b.scale) (bnSlots tr ntr u b.useBias true true) <;> rfl

theorem bnSlots_length (tr ntr : List (List ℕ)) (u : ℕ) (ub ce sc : Bool) :
    (bnSlots tr ntr u ub ce sc).length = tr.length + ntr.length + 2 + (if ce && ub then 1 else 0) + (if sc then 1 else 0) := by
  unfold bnSlots
  cases hcu : (ce && ub) <;> cases sc <;> simp <;> omega

/-- **C79**, fused batch normalisation, exactly when it loads: a built `HDenseBatchNorm` or `HConv*BatchNorm` can be loaded if and only if it was
made with `scale=True` and normalises the mean whenever it has a bias; otherwise the loaded layer expects more weights than were saved. -/
theorem C79_bn_loads_iff (c : Cls) (hc : c = HDenseBatchNorm ∨ c = HConvNDBatchNorm) (tr ntr : List (List ℕ)) (u : ℕ) (b : BNLayer)
    (hb : b.center = true → b.useBias = true) :
    (∃ b', reloadBN c tr ntr u b = .ok b') ↔ b.scale = true ∧ (b.useBias = true → b.center = true) := by
  rw [reloadBN_eq c hc]
  constructor
  · rintro ⟨b', h⟩
    by_contra hno
    have hlen : (bnSlots tr ntr u b.useBias b.center b.scale).length ≠ (bnSlots tr ntr u b.useBias true true).length := by
      rw [bnSlots_length, bnSlots_length]
      cases hu : b.useBias <;> cases hce : b.center <;> cases hs : b.scale <;> simp_all
    unfold weightsLoad at h
    rw [if_pos hlen] at h
    cases h
  · rintro ⟨hs, hc'⟩
    have : bnSlots tr ntr u b.useBias b.center b.scale = bnSlots tr ntr u b.useBias true true := by
      rw [hs]
      cases hu : b.useBias with
      | false => cases hce : b.center <;> simp [bnSlots]
      | true => rw [hc' hu]
    rw [this]
    unfold weightsLoad
    rw [if_neg (by simp), if_neg (by simp)]
    exact ⟨_, rfl⟩

/-- **C79**, fused batch normalisation that loads: with the default `epsilon`, the loaded layer computes with the same kernel and bias at inference.
Missing: any other `epsilon`, see `C79_bn_epsilon_lost`. -/
theorem C79_bn_partial (c : Cls) (hc : c = HDenseBatchNorm ∨ c = HConvNDBatchNorm) (tr ntr : List (List ℕ)) (u : ℕ) (b b' : BNLayer)
    (hb : b.center = true → b.useBias = true) (h : reloadBN c tr ntr u b = .ok b') (heps : b.eps = 1 / 1000) (x : List ℚ) (p : ℕ) :
    b'.fusedKernel = b.fusedKernel ∧ b'.inferBias = b.inferBias ∧
      b'.lin b'.fusedKernel x p + b'.inferBias (b'.chan p) = b.lin b.fusedKernel x p + b.inferBias (b.chan p) := by
  have hl := (C79_bn_loads_iff c hc tr ntr u b hb).mp ⟨b', h⟩
  rw [reloadBN_eq c hc] at h
  have hb' : b' = { b with momentum := 99 / 100 } := by
    cases hw : weightsLoad (bnSlots tr ntr u b.useBias b.center b.scale) (bnSlots tr ntr u b.useBias true true) with
    | error e => rw [hw] at h; cases h
    | ok v =>
      rw [hw] at h
      have h := Except.ok.inj h
      rw [← h]
      have hce : b.useBias = b.center := by
        cases hu : b.useBias with
        | false => cases hce : b.center with
          | false => rfl
          | true => rw [hb hce] at hu; cases hu
        | true => exact (hl.2 hu).symm
      cases b
      simp_all
  subst hb'
  exact ⟨rfl, rfl, rfl⟩

/-- **C79** is violated for any other `epsilon`: the loaded layer uses 0.001. With `rsqrt` injective, as `1/sqrt` is, every non-zero kernel entry of a
channel with non-zero gamma changes. -/
theorem C79_bn_epsilon_lost (c : Cls) (hc : c = HDenseBatchNorm ∨ c = HConvNDBatchNorm) (tr ntr : List (List ℕ)) (u : ℕ) (b b' : BNLayer)
    (hb : b.center = true → b.useBias = true) (h : reloadBN c tr ntr u b = .ok b') (heps : b.eps ≠ 1 / 1000)
    (hinj : Function.Injective b.rsqrt) (j : ℕ) (hj : b.kernel j ≠ 0) (hg : b.gamma (b.kchan j) ≠ 0) :
    b'.fusedKernel j ≠ b.fusedKernel j := by
  have hl := (C79_bn_loads_iff c hc tr ntr u b hb).mp ⟨b', h⟩
  rw [reloadBN_eq c hc] at h
  cases hw : weightsLoad (bnSlots tr ntr u b.useBias b.center b.scale) (bnSlots tr ntr u b.useBias true true) with
  | error e => rw [hw] at h; cases h
  | ok v =>
    rw [hw] at h
    have h := Except.ok.inj h
    rw [← h]
    unfold BNLayer.fusedKernel
    simp only [hl.1, Bool.not_true, Bool.false_eq_true, if_false]
    intro he
    have he := mul_left_cancel₀ hj he
    have he := hinj (mul_left_cancel₀ hg he)
    exact heps (by linarith)

/-- a dense layer with one input, one output and `epsilon = 0.751`; variance 0.249 -/
def exBN (rsqrt : ℚ → ℚ) (center scale : Bool) : BNLayer where
  center := center
  scale := scale
  useBias := true
  outShape := [1]
  chLoc := .last
  taps := fun _ => [(0, 0)]
  kchan := fun _ => 0
  kernel := fun _ => 3
  bias := fun _ => 1
  gamma := fun _ => 1
  beta := fun _ => 0
  movingMean := fun _ => 0
  movingVar := fun _ => 249 / 1000
  eps := 751 / 1000
  momentum := 9 / 10
  rsqrt := rsqrt

/-- with `rsqrt 1 = 1` and `rsqrt 0.25 = 2` the kernel 3 becomes 6; without `scale` the layer does not load -/
example (r : ℚ → ℚ) (h1 : r 1 = 1) (h2 : r (1 / 4) = 2) : (exBN r true true).fusedKernel 0 = 3 ∧
    (∃ b', reloadBN HDenseBatchNorm [[1, 1], [1], [1, 1], [1, 1]] [[], []] 1 (exBN r true true) = .ok b' ∧ b'.fusedKernel 0 = 6) ∧
    ¬ ∃ b', reloadBN HDenseBatchNorm [[1, 1], [1], [1, 1], [1, 1]] [[], []] 1 (exBN r true false) = .ok b' := by
  refine ⟨?_, ?_, ?_⟩
  · norm_num [BNLayer.fusedKernel, exBN, h1]
  · rw [reloadBN_eq _ (.inl rfl)]
    refine ⟨_, rfl, ?_⟩
    norm_num [BNLayer.fusedKernel, exBN, h2]
  · rw [C79_bn_loads_iff _ (.inl rfl) _ _ _ _ (fun _ => rfl)]
    simp [exBN]

/-! ### C79: proxy models -/

/-- **C79**, fixed-point quantizers: a quantizer made with signs 0 or 1 and non-negative numbers of bits is the same after saving and loading (types, modes and
overrides), and saving does not change the quantizer that is saved. -/
theorem C79_quantizer (shape : List ℕ) (arr : List (ℤ × ℤ × ℤ)) (R : Rnd) (S : Sat) (ov : V)
    (hk : ∀ t ∈ arr, t.1 = 0 ∨ t.1 = 1) (hb : ∀ t ∈ arr, 0 ≤ t.2.1) :
    (PQuant.init shape arr R S ov).reload = .ok (PQuant.init shape arr R S ov) ∧
      ((PQuant.init shape arr R S ov).getConfig.map Prod.fst) = .ok (PQuant.init shape arr R S ov) := by
  have h1 : ((PQuant.init shape arr R S ov).arr.all fun t => t.keepNegative == 0 || t.keepNegative == 1) = true := by
    rw [List.all_eq_true]
    intro q hq
    obtain ⟨t, ht, rfl⟩ := List.mem_map.mp hq
    unfold KBI.init
    split_ifs
    · rfl
    · rcases hk t ht with h | h <;> simp [h]
  have h2 : ((PQuant.init shape arr R S ov).arr.all fun t => decide (0 ≤ t.bits)) = true := by
    rw [List.all_eq_true]
    intro q hq
    obtain ⟨t, ht, rfl⟩ := List.mem_map.mp hq
    have := hb t ht
    unfold KBI.init
    split_ifs <;> simpa
  have hg : (PQuant.init shape arr R S ov).getConfig = .ok (PQuant.init shape arr R S ov,
      ⟨shape, R, S, (PQuant.init shape arr R S ov).overrides⟩) := by
    unfold PQuant.getConfig
    rw [if_neg (by rw [h1]; simp), if_pos h2]
    rfl
  unfold PQuant.reload
  rw [hg]
  refine ⟨?_, rfl⟩
  simp only [bind, Except.bind]
  unfold PQuant.setWeights PQuant.fromConfig
  rw [if_neg (by simp [PQuant.init])]
  unfold PQuant.init
  by_cases ho : ov = .none
  · simp [ho]
  · simp [ho]

/-- … so that the loaded quantizer treats every value of a tensor as before: the value at index `i` gets the type stored at the same index,
with 0 along the dimensions in which the types have size 1 (`Compat`: the types can be broadcast to the tensor). -/
theorem C79_quantizer_values (shape outShape : List ℕ) (arr : List (ℤ × ℤ × ℤ)) (R : Rnd) (S : Sat) (ov : V)
    (hk : ∀ t ∈ arr, t.1 = 0 ∨ t.1 = 1) (hb : ∀ t ∈ arr, 0 ≤ t.2.1) (hlen : arr.length = prodL shape) (hc : Compat outShape shape)
    (i : List ℕ) (hi : ValidIdx outShape i) (x : ℚ) :
    ∃ q' t, (PQuant.init shape arr R S ov).reload = .ok q' ∧
      arr[ravel shape (List.zipWith (fun d j => if d = 1 then 0 else j) shape i)]? = some t ∧
      q'.call outShape x (ravel outShape i) = (KBI.init t.1 t.2.1 t.2.2).apply R S x := by
  have hbc : ∀ (a b : List ℕ), bcastIdx a b = List.zipWith (fun d j => if d = 1 then 0 else j) a b := by
    intro a
    induction a with
    | nil => intro b; cases b <;> rfl
    | cons d a ih => intro b; cases b with
      | nil => rfl
      | cons j b => simp [bcastIdx, ih]
  have hlt : ravel shape (bcastIdx shape i) < arr.length := by rw [hlen]; exact ravel_lt (valid_bcast hc hi)
  rw [← hbc]
  refine ⟨_, arr[ravel shape (bcastIdx shape i)], (C79_quantizer shape arr R S ov hk hb).1, List.getElem?_eq_getElem hlt, ?_⟩
  unfold PQuant.call PQuant.init elemOf
  simp only
  rw [unravel_ravel hi, List.getD_eq_getElem?_getD, List.getElem?_map, List.getElem?_eq_getElem hlt]
  rfl

/-- … a quantizer with another sign entry (and bits) cannot be saved … -/
theorem C79_quantizer_refused (shape : List ℕ) (arr : List (ℤ × ℤ × ℤ)) (R : Rnd) (S : Sat) (ov : V) (t : ℤ × ℤ × ℤ) (ht : t ∈ arr)
    (h0 : t.1 ≠ 0) (h1 : t.1 ≠ 1) (hb : t.2.1 ≠ 0) : ∃ e, (PQuant.init shape arr R S ov).reload = .error e := by
  have : ((PQuant.init shape arr R S ov).arr.all fun t => t.keepNegative == 0 || t.keepNegative == 1) = false := by
    rw [List.all_eq_false]
    refine ⟨KBI.init t.1 t.2.1 t.2.2, List.mem_map.mpr ⟨t, ht, rfl⟩, ?_⟩
    unfold KBI.init
    rw [if_neg hb]
    simp [h0, h1]
  unfold PQuant.reload PQuant.getConfig
  rw [if_pos (by rw [this]; simp)]
  exact ⟨_, rfl⟩

/-- … and of a signed quantizer with a negative number of bits, merely asking for the configuration changes the quantizer: the element is switched off. -/
theorem C79_quantizer_negative_bits : let q := PQuant.init [1] [(1, -1, 0)] .RND .SAT .none
    q.call [1] 3 0 ≠ 0 ∧ ∃ q', q.getConfig.map Prod.fst = .ok q' ∧ q'.call [1] 3 0 = 0 := by
  refine ⟨by decide +kernel, _, rfl, by decide +kernel⟩

example : (PQuant.init [2] [(1, 8, 3), (0, 0, 5)] .RND_CONV .SAT (.obj 4)).reload =
      .ok ⟨[2], [⟨1, 8, 3⟩, ⟨0, 0, 0⟩], .RND_CONV, .SAT, .obj 4⟩ := by
  decide +kernel

/-- types per column for a tensor of two rows and two columns: the value in row 1, column 1 gets the second type -/
example : ∃ q' t, (PQuant.init [1, 2] [(1, 8, 3), (0, 4, 4)] .TRN .SAT .none).reload = .ok q' ∧
    [((1 : ℤ), (8 : ℤ), (3 : ℤ)), (0, 4, 4)][ravel [1, 2] (List.zipWith (fun d j => if d = 1 then 0 else j) [1, 2] [1, 1])]? = some t ∧
    q'.call [2, 2] (7 / 2) (ravel [2, 2] [1, 1]) = (KBI.init t.1 t.2.1 t.2.2).apply .TRN .SAT (7 / 2) :=
  C79_quantizer_values [1, 2] [2, 2] _ .TRN .SAT .none (by decide) (by decide) rfl (by simp [Compat]) [1, 1] (by simp [ValidIdx]) _

/-- **C79**, look-up tables: a table made from an activation is the same after saving and loading (with the same size limit), although the rounding
and overflow modes are not saved. -/
theorem C79_lut (limit hlsMax : ℤ) (phi : ℚ → ℚ) (t : KIF) (hk : t.k = 0 ∨ t.k = 1) (out : KifRS) (L : Lut)
    (h : Lut.fromActivation limit hlsMax phi t out = .ok L) : lutReload limit L = .ok L := by
  unfold Lut.fromActivation at h
  split_ifs at h with h1 h2
  unfold Lut.init at h
  split_ifs at h with g1 g2
  have h := Except.ok.inj h
  subst h
  unfold lutReload
  simp only [List.length_map]
  rw [if_neg (not_not.mpr h1), if_neg (not_not.mpr g1), if_neg g2, if_neg]
  rw [Classical.not_not]
  exact lutInputs_length t hk (by have : t.sum = t.k + t.i + t.f := rfl; omega)

/-! ### C80 -/

theorem QConf_call_fbw (c : QConf) (elem : ℕ → ℕ) (s s' : QState) (hs : s'.fbw = s.fbw) (noise : ℕ → ℕ → ℚ) (tr r r' : Bool)
    (xs : List (List ℚ)) :
    (∃ e, c.call elem s noise tr r xs = .error e ∧ c.call elem s' noise tr r' xs = .error e) ∨
    ∃ t t' o, c.call elem s noise tr r xs = .ok (t, o) ∧ c.call elem s' noise tr r' xs = .ok (t', o) ∧ t'.fbw = t.fbw := by
  unfold QConf.call
  simp only [hs]
  cases hf : c.forwardBatch elem (fun e => c.clip (s.fbw e)) noise tr xs with
  | error e => exact .inl ⟨e, rfl, rfl⟩
  | ok o =>
    right
    simp only [bind, Except.bind]
    cases r <;> cases r' <;> exact ⟨_, _, o, rfl, rfl, rfl⟩

theorem Node_call_fbw (nd : Node) (s s' : QState) (hs : s'.fbw = s.fbw) (r r' : Bool) (b : List (List (List ℚ))) :
    (∃ e, nd.call s r b = .error e ∧ nd.call s' r' b = .error e) ∨
    ∃ t t' o, nd.call s r b = .ok (t, o) ∧ nd.call s' r' b = .ok (t', o) ∧ t'.fbw = t.fbw := by
  unfold Node.call
  cases nd.site with
  | none => exact .inr ⟨s, s', _, rfl, by rw [hs], hs⟩
  | some q =>
    simp only [hs]
    rcases QConf_call_fbw q.conf q.elem s s' hs (fun _ _ => 0) false r r' (b.map (nd.pre s.fbw)) with ⟨e, h1, h2⟩ | ⟨t, t', o, h1, h2, h3⟩
    · exact .inl ⟨e, by rw [h1]; rfl, by rw [h2]; rfl⟩
    · exact .inr ⟨t, t', _, by rw [h1]; rfl, by rw [h2]; rfl, h3⟩

theorem run_fbw : ∀ (net : Net) (ss ss' : List LState), ss'.map (·.q.fbw) = ss.map (·.q.fbw) → ∀ envs,
    (net.run ss' envs).map Prod.snd = (net.run ss envs).map Prod.snd
  | [], _, _, _, envs => rfl
  | (nd, ins) :: rest, [], [], _, envs => rfl
  | (nd, ins) :: rest, [], s' :: ss', h, envs => by cases h
  | (nd, ins) :: rest, s :: ss, [], h, envs => by cases h
  | (nd, ins) :: rest, s :: ss, s' :: ss', h, envs => by
    rw [List.map_cons, List.map_cons] at h
    injection h with h1 h2
    unfold Net.run
    rcases Node_call_fbw nd s.q s'.q h1 s.recording s'.recording (envs.map (gather · ins)) with ⟨e, g1, g2⟩ | ⟨t, t', o, g1, g2, -⟩
    · rw [g1, g2]; rfl
    · rw [g1, g2]
      simp only [bind, Except.bind]
      have ih := run_fbw rest ss ss' h2 (List.zipWith (fun env o => env ++ [o]) envs o)
      cases hr : Net.run rest ss (List.zipWith (fun env o => env ++ [o]) envs o) with
      | error e =>
        rw [hr] at ih
        cases hr' : Net.run rest ss' (List.zipWith (fun env o => env ++ [o]) envs o) with
        | error e' => rw [hr'] at ih; cases ih; rfl
        | ok v => rw [hr'] at ih; cases ih
      | ok v =>
        rw [hr] at ih
        cases hr' : Net.run rest ss' (List.zipWith (fun env o => env ++ [o]) envs o) with
        | error e' => rw [hr'] at ih; cases ih
        | ok v' =>
          rw [hr'] at ih
          have ih := Except.ok.inj ih
          change Except.ok v'.2 = Except.ok v.2
          rw [show v'.2 = v.2 from ih]

/-- **C80**, outputs: the loaded model returns for every batch what the saved one does (all tensors of all layers, exceptions included), whatever had been recorded. -/
theorem C80_outputs (net : Net) (ss : List LState) (batch : List (List (List ℚ))) :
    (net.run (reloadStates ss) batch).map Prod.snd = (net.run ss batch).map Prod.snd := by
  apply run_fbw
  unfold reloadStates
  rw [List.map_map]
  rfl

/-- **C80** is violated: the recorded ranges are not part of the file. A model with at least one quantizer cannot be converted after loading,
however well it had been traced. -/
theorem C80_conversion_refused (S : Sat) (net : Net) (ss : List QState) (hlen : ss.length = net.length) (nd : Node) (ins : List ℕ) (hmem : (nd, ins) ∈ net) (q : QSite)
    (hq : nd.site = some q) (hn : 0 < prodL q.qShape) : ∃ e, net.toProxy S (ss.map reloadState) = .error e := by
  induction net generalizing ss with
  | nil => cases hmem
  | cons x rest ih =>
    cases ss with
    | nil => cases hlen
    | cons s ss =>
      obtain ⟨nd0, ins0⟩ := x
      rw [List.map_cons]
      unfold Net.toProxy
      rcases List.mem_cons.mp hmem with h | h
      · cases h
        have : ∃ e, nd.toProxy (reloadState s) S = .error e := by
          unfold Node.toProxy
          rw [hq]
          obtain ⟨e, he⟩ := C19_untraced_refused (reloadState s) (prodL q.qShape) false 0 hn (.inl rfl)
          exact ⟨e, by simp only [he]⟩
        obtain ⟨e, he⟩ := this
        exact ⟨e, by rw [he]; rfl⟩
      · obtain ⟨e, he⟩ := ih ss (by simpa using hlen) h
        cases hf : nd0.toProxy (reloadState s) S with
        | error e' => exact ⟨e', rfl⟩
        | ok f => exact ⟨e, by rw [he]; rfl⟩

theorem adjust_fbw (nd : Node) (s : QState) : (nd.adjust s).fbw = s.fbw := by
  unfold Node.adjust
  split <;> rfl

theorem zipWith_adjust_fbw : ∀ {net : Net} {ss : List QState} {P : Node → QState → Prop}, net.All P ss →
    (List.zipWith (fun ni s => ni.1.adjust s) net ss).map QState.fbw = ss.map QState.fbw
  | [], [], _, _ => rfl
  | (nd, ins) :: rest, s :: ss, _, h => by
    rw [List.zipWith_cons_cons, List.map_cons, List.map_cons, adjust_fbw, zipWith_adjust_fbw h.2]

/-- **C80**, what remains: tracing the loaded model on the same data gives back the ranges, and hence the proxy, of the saved one. (Bitwidths within their
clip range, as after any call.) -/
theorem C80_retrace_partial (net : Net) (ss₀ ss : List QState) (bsz : ℕ) (data envs : List (List (List ℚ))) (hc : net.All Node.Clipped ss₀)
    (h : net.trace ss₀ bsz data = .ok (ss, envs)) (S : Sat) :
    net.trace (ss.map reloadState) bsz data = .ok (ss, envs) ∧
      ∀ ss', net.trace (ss.map reloadState) bsz data = .ok (ss', envs) → net.toProxy S ss' = net.toProxy S ss := by
  have hreset : net.All Node.Clipped (ss₀.map QState.reset) := by
    clear h
    induction net generalizing ss₀ with
    | nil => cases ss₀ with
      | nil => trivial
      | cons s ss => exact hc.elim
    | cons x rest ih => cases ss₀ with
      | nil => exact hc.elim
      | cons s ss => exact ⟨hc.1, ih ss hc.2⟩
  obtain ⟨t, h1, h2, -⟩ := net.callBatches_spec true (chunks bsz data) (ss₀.map QState.reset) hreset
  have hfbw : ss.map QState.fbw = ss₀.map QState.fbw := by
    unfold Net.trace at h
    rw [h1] at h
    have h := Prod.mk.inj (Except.ok.inj h)
    rw [← h.1, zipWith_adjust_fbw (Net.All.ext clipped_ext hreset h2), h2.fbw, List.map_map]
    rfl
  have hst : (ss.map reloadState).map QState.reset = ss₀.map QState.reset := by
    have := congrArg (List.map fun f => (⟨f, fun _ => ⊤, fun _ => ⊥⟩ : QState)) hfbw
    rw [List.map_map, List.map_map] at this
    rw [List.map_map]
    exact this
  have heq : net.trace (ss.map reloadState) bsz data = .ok (ss, envs) := by
    rw [← h]
    unfold Net.trace
    rw [hst]
  refine ⟨heq, fun ss' h' => ?_⟩
  rw [heq] at h'
  cases h'
  rfl

-- one quantizer, traced on two samples: the conversion works, not any more after loading
example : let net : Net := [(.quantize exAct, [0])]
    let s : QState := ⟨fun _ => 1, fun _ => ⊤, fun _ => ⊥⟩
    net.All Node.Clipped [s] ∧ (match net.trace [s] 1 [[[1, 3]], [[-2, 1 / 2]]] with
      | .error _ => false
      | .ok (ss, _) => (net.toProxy .WRAP ss).toBool && !(net.toProxy .WRAP (ss.map reloadState)).toBool) = true := by
  refine ⟨⟨?_, trivial⟩, by decide +kernel⟩
  intro q hq e
  cases hq
  change exAct.conf.clip 1 = 1
  decide +kernel

/-! ### C81 -/

variable {F : Type}

/-- Specification: the same history without the interruptions. -/
def withoutSaving (es : List (Ev F)) : List (Ev F) := es.filter fun | .saveLoad => false | _ => true

theorem run_not_delayed (es : List (Ev F)) : ∀ s s' : Adapting F, s.delayed = false → s'.delayed = false → s'.fbw = s.fbw →
    (s'.run es).fbw = (s.run (withoutSaving es)).fbw := by
  induction es with
  | nil => intro s s' _ _ h; exact h
  | cons e es ih =>
    intro s s' hs hs' h
    cases e with
    | train adapt opt =>
      refine ih (s.step (.train adapt opt)) (s'.step (.train adapt opt)) ?_ ?_ ?_
      · simp [Adapting.step, hs]
      · simp [Adapting.step, hs']
      · simp [Adapting.step, hs, hs', h]
    | infer => exact ih s s' hs hs' h
    | saveLoad =>
      refine ih s (s'.step .saveLoad) hs ?_ h
      simp [Adapting.step, Adapting.build, hs']

/-- **C81**, layers that adapt their kernel bitwidths when they are built (all but `HDenseBatchNorm`): in any history of training steps and inference, saving and
loading in between makes no difference to the bitwidths. Missing: `HDenseBatchNorm`, see `C81_fused_dense_readapts`. -/
theorem C81_interruptions_partial (adapt : F → F) (f : F) (doAdapt : Bool) (es : List (Ev F)) :
    ((Adapting.build adapt f doAdapt false).run es).fbw = ((Adapting.build adapt f doAdapt false).run (withoutSaving es)).fbw := by
  apply run_not_delayed _ _ _ _ _ rfl <;> cases doAdapt <;> rfl

theorem run_done (es : List (Ev F)) : ∀ s : Adapting F, s.doAdapt = false → (∀ e ∈ es, e ≠ .saveLoad) →
    (s.run es).fbw = es.foldl (fun f e => match e with | .train _ opt => opt f | _ => f) s.fbw := by
  induction es with
  | nil => intro s _ _; rfl
  | cons e es ih =>
    intro s hs hno
    have hno' : ∀ e ∈ es, e ≠ .saveLoad := fun e he => hno e (by simp [he])
    cases e with
    | train adapt opt =>
      have := ih (s.step (.train adapt opt)) (by simp [Adapting.step, hs]) hno'
      refine this.trans ?_
      simp [Adapting.step, hs]
    | infer => exact ih s hs hno'
    | saveLoad => exact absurd rfl (hno .saveLoad (by simp))

/-- **C81**, `HDenseBatchNorm` without interruption: the bitwidths are adapted at the first training step, and from then on only the optimizer changes them. Training by direct calls; for `model.fit` see C94. -/
theorem C81_adapted_once (adapt₀ adapt opt : F → F) (f : F) (n : ℕ) (es : List (Ev F)) (hno : ∀ e ∈ es, e ≠ .saveLoad) :
    ((Adapting.build adapt₀ f true true).run (List.replicate n .infer ++ .train adapt opt :: es)).fbw =
      es.foldl (fun f e => match e with | .train _ opt => opt f | _ => f) (opt (adapt f)) := by
  unfold Adapting.run
  rw [List.foldl_append]
  have : (List.replicate n Ev.infer).foldl Adapting.step (Adapting.build adapt₀ f true true) = ⟨f, true, true⟩ := by
    induction n with
    | zero => rfl
    | succ n ih => rw [List.replicate_succ, List.foldl_cons]; exact ih
  rw [this]
  exact run_done es _ rfl hno

/-- **C81** is violated for `HDenseBatchNorm`: after loading, the next training step adapts the learned bitwidths once more. Whatever had happened before, with a
kernel entry whose fused value is not ±1 (nor 0), the bitwidth that reaches the optimizer is not the one that was saved. -/
theorem C81_fused_dense_readapts (s : Adapting ℝ) (hs : s.delayed = true) (es : List (Ev ℝ)) (w : ℚ) (hw : w ≠ 0) (hne : |w| ≠ 1)
    (opt : ℝ → ℝ) (hopt : Function.Injective opt) :
    let adapt := fun f : ℝ => (adaptBw f w).untopD 0
    ((s.run es).run [.saveLoad, .train adapt opt]).fbw ≠ opt (s.run es).fbw := by
  have hd : ∀ es : List (Ev ℝ), ∀ s : Adapting ℝ, s.delayed = true → (s.run es).delayed = true := by
    intro es
    induction es with
    | nil => intro s h; exact h
    | cons e es ih =>
      intro s h
      refine ih (s.step e) ?_
      cases e with
      | train a o => unfold Adapting.step; split_ifs <;> exact h
      | infer => exact h
      | saveLoad => simp [Adapting.step, Adapting.build, h]
  have hd := hd es s hs
  intro adapt he
  have h1 : ((s.run es).run [.saveLoad, .train adapt opt]).fbw = opt (adapt (s.run es).fbw) := by
    simp [Adapting.run, Adapting.step, Adapting.build] at hd ⊢
    simp [hd]
  rw [h1] at he
  have he := hopt he
  have hl : adapt (s.run es).fbw = (s.run es).fbw - Real.logb 2 |(w : ℝ)| := by
    simp only [adapt]
    unfold adaptBw
    rw [if_neg hw]
    rfl
  rw [hl] at he
  have h0 : Real.logb 2 |(w : ℝ)| = 0 := by linarith
  rw [Real.logb_eq_zero] at h0
  have hw' : (w : ℝ) ≠ 0 := by exact_mod_cast hw
  rcases h0 with h | h | h | h | h | h
  · norm_num at h
  · norm_num at h
  · norm_num at h
  · exact hw' (abs_eq_zero.mp h)
  · exact hne (by exact_mod_cast h)
  · have := abs_nonneg (w : ℝ); linarith

/-- with weight 1/4: 2 bits become 4 fractional bits at the first step, and 6 after saving and loading -/
example : let adapt := fun f : ℝ => (adaptBw f (1 / 4)).untopD 0
    ((Adapting.build id 2 true true).run [.train adapt id]).fbw = 4 ∧
    ((Adapting.build id 2 true true).run [.train adapt id, .saveLoad, .train adapt id]).fbw = 6 := by
  have hq : Real.logb 2 |((1 / 4 : ℚ) : ℝ)| = -2 := by
    rw [show |((1 / 4 : ℚ) : ℝ)| = (2 : ℝ) ^ (-2 : ℝ) by norm_num [Real.rpow_neg, abs_of_pos]]
    exact Real.logb_rpow (by norm_num) (by norm_num)
  have ha : ∀ f : ℝ, (adaptBw f (1 / 4)).untopD 0 = f + 2 := by
    intro f
    unfold adaptBw
    rw [if_neg (by norm_num)]
    change f - _ = _
    rw [hq]; ring
  simp only [ha]
  norm_num [Adapting.run, Adapting.step, Adapting.build]

end HGQ.Serialize
