import Verif.Props.Accum
import Verif.Props.Apf

/-!
C39: types wider than 64 bits are refused.
-/

namespace HGQ

open Spec

theorem rnd_word (R : Rnd) : WordChars R.str := by
  cases R <;> (intro c hc; revert c hc; decide)

theorem sat_word (S : Sat) : WordChars S.str := by
  cases S <;> (intro c hc; revert c hc; decide)

/-- integer plus fractional bits -/
def KIF.ifBits (t : KIF) : ℤ := t.i + t.f

/-- what the check sees of a printed type -/
theorem parse_printed (t : KIF) (hk : t.k = 0 ∨ t.k = 1) (rnd warp : List Char) (hr : WordChars rnd) (hw : WordChars warp) :
    ∃ t', apfToTuple (tupleToApf t rnd warp) = some t' ∧ (t'.i + t'.f > 64 ↔ t.ifBits > 64) := by
  unfold KIF.ifBits
  rcases le_or_gt 1 (t.k + t.i + t.f) with h | h
  · exact ⟨t, C40_roundtrip t hk h rnd warp hr hw true, Iff.rfl⟩
  · refine ⟨_, C40_padded t hk (by omega) rnd warp hr hw, ?_⟩
    simp only
    omega

theorem check_type (n : String) (hn : n.endsWith "_t" = true) (t : KIF) (hk : t.k = 0 ∨ t.k = 1) (rnd warp : List Char)
    (hr : WordChars rnd) (hw : WordChars warp) (rest : Conf) :
    checkConf ((n, .inl (tupleToApf t rnd warp)) :: rest) =
      if t.ifBits > 64 then .error "huge bitwidth" else
        (do let r ← checkConf rest; return (n, .inl (tupleToApf t rnd warp)) :: r) := by
  obtain ⟨t', h1, h2⟩ := parse_printed t hk rnd warp hr hw
  rw [checkConf]
  simp only [hn, if_true, h1]
  by_cases h : t.ifBits > 64
  · rw [if_pos h, if_pos (h2.mpr h)]
  · rw [if_neg h, if_neg (fun h' => h (h2.mp h'))]

theorem wordTRN : WordChars "TRN".toList := rnd_word .TRN
theorem wordWARP : WordChars "WARP".toList := by intro c hc; revert c hc; decide
theorem wordWRAP : WordChars "WRAP".toList := sat_word .WRAP

theorem ends_weight : "weight_t".endsWith "_t" = true := by decide +kernel
theorem ends_accum : "accum_t".endsWith "_t" = true := by decide +kernel
theorem ends_result : "result_t".endsWith "_t" = true := by decide +kernel
theorem ends_bias : "bias_t".endsWith "_t" = true := by decide +kernel
theorem ends_table : "table_t".endsWith "_t" = true := by decide +kernel
theorem ends_size : "table_size".endsWith "_t" = false := by decide +kernel

/-- **C39**, layers with a kernel: the configuration is refused exactly when one of its four types has more than 64 integer
and fractional bits; otherwise it is returned as derived. -/
theorem C39_kernel_layer (T : LinTypes) (h1 : T.weight.k = 0 ∨ T.weight.k = 1) (h2 : T.accum.k = 0 ∨ T.accum.k = 1)
    (h3 : T.result.kif.k = 0 ∨ T.result.kif.k = 1) (h4 : T.bias.k = 0 ∨ T.bias.k = 1) :
    checkConf (linConf T) =
      if T.weight.i + T.weight.f > 64 ∨ T.accum.i + T.accum.f > 64 ∨ T.result.kif.i + T.result.kif.f > 64 ∨
        T.bias.i + T.bias.f > 64 then .error "huge bitwidth" else .ok (linConf T) := by
  unfold linConf
  rw [check_type _ ends_weight _ h1 _ _ wordTRN wordWARP, check_type _ ends_accum _ h2 _ _ wordTRN wordWARP,
    check_type _ ends_result _ h3 _ _ (rnd_word _) (sat_word _), check_type _ ends_bias _ h4 _ _ wordTRN wordWARP]
  unfold KIF.ifBits
  by_cases a : T.weight.i + T.weight.f > 64 <;> by_cases b : T.accum.i + T.accum.f > 64 <;>
    by_cases c : T.result.kif.i + T.result.kif.f > 64 <;> by_cases d : T.bias.i + T.bias.f > 64 <;>
    simp [a, b, c, d, checkConf, bind, Except.bind, pure, Except.pure]

/-- **C39**, activation layers. -/
theorem C39_activation_layer (fn : ActFn) (r : KifRS) (inp : KIF) (h : r.kif.k = 0 ∨ r.kif.k = 1) :
    checkConf (tableConf fn r inp) =
      if r.kif.i + r.kif.f > 64 then .error "huge bitwidth" else .ok (tableConf fn r inp) := by
  unfold tableConf
  rw [check_type _ ends_table _ h _ _ (rnd_word _) (sat_word _)]
  unfold KIF.ifBits
  by_cases a : r.kif.i + r.kif.f > 64
  · simp [a]
  · simp only [a, if_false]
    rw [checkConf]
    simp only [ends_size, Bool.false_eq_true, if_false]
    cases fn
    · rw [check_type _ ends_result _ h _ _ wordTRN wordWRAP]
      simp [KIF.ifBits, a, checkConf, bind, Except.bind, pure, Except.pure]
    · rw [check_type _ ends_result _ h _ _ wordTRN wordWRAP]
      simp [KIF.ifBits, a, checkConf, bind, Except.bind, pure, Except.pure]
    · rw [check_type _ ends_result _ h _ _ (rnd_word _) (sat_word _)]
      simp [KIF.ifBits, a, checkConf, bind, Except.bind, pure, Except.pure]

/-- **C39**, all other layers. -/
theorem C39_other_layer (r : KifRS) (h : r.kif.k = 0 ∨ r.kif.k = 1) :
    checkConf (plainConf r) = if r.kif.i + r.kif.f > 64 then .error "huge bitwidth" else .ok (plainConf r) := by
  unfold plainConf
  rw [check_type _ ends_result _ h _ _ (rnd_word _) (sat_word _)]
  unfold KIF.ifBits
  by_cases a : r.kif.i + r.kif.f > 64 <;> simp [a, checkConf, bind, Except.bind, pure, Except.pure]

/-- **C39**, an unquantized input (produced type with 65535 integer and fractional bits) of a layer with a kernel is always
refused, whatever the kernel, the bias and the downstream quantizers, as long as `accum_fp_max_offset` is not set and the
types involved are within 30000 bits of the binary point. -/
theorem C39_unquantized_input_refused (kernel bias : List ℚ) (units : ℕ) (r : KifRS)
    (hwi : -30000 ≤ (arrContainer kernel).i) (hwf : -30000 ≤ (arrContainer kernel).f) (hri : -30000 ≤ r.kif.i)
    (hrk : r.kif.k = 0 ∨ r.kif.k = 1) :
    checkConf (linConf (linTypes r (linearKif infKif kernel bias units) (arrContainer kernel) none)) =
      .error "huge bitwidth" := by
  have hp : (linearKif infKif kernel bias units).k = 0 ∨ (linearKif infKif kernel bias units).k = 1 := by
    unfold linearKif; simp only; split_ifs <;> simp
  have hpf : (linearKif infKif kernel bias units).f = 65535 + (arrContainer kernel).f := rfl
  have hpi : (linearKif infKif kernel bias units).i =
    65535 + (arrContainer kernel).i + Nat.clog 2 (kernel.length / units) := rfl
  have hacc : (linTypes r (linearKif infKif kernel bias units) (arrContainer kernel) none).accum.k = 0 ∨
      (linTypes r (linearKif infKif kernel bias units) (arrContainer kernel) none).accum.k = 1 := by
    unfold linTypes
    cases r.sat <;> first | exact hrk | exact hp
  rw [C39_kernel_layer _ (arrContainer_k kernel) hacc hrk hacc, if_pos]
  right; left
  have : (linTypes r (linearKif infKif kernel bias units) (arrContainer kernel) none).accum =
      if r.sat = .WRAP then ⟨r.kif.k, r.kif.i, (linearKif infKif kernel bias units).f⟩ else
        linearKif infKif kernel bias units := by
    unfold linTypes
    cases r.sat <;> rfl
  rw [this]
  split_ifs
  · simp only; omega
  · omega

/-- **C39** for unquantized inputs fails with `accum_fp_max_offset`: a finite accumulator type is declared and nothing is
refused. -/
theorem C39_unquantized_input_offset_accepted : ∃ (kernel : List ℚ) (r : KifRS) (off : ℤ),
    checkConf (linConf (linTypes r (linearKif infKif kernel [] 1) (arrContainer kernel) (some off))) =
      .ok (linConf (linTypes r (linearKif infKif kernel [] 1) (arrContainer kernel) (some off))) := by
  refine ⟨[3, -5], ⟨⟨1, 4, 3⟩, .TRN, .WRAP⟩, 2, ?_⟩
  rw [C39_kernel_layer _ (by decide +kernel) (by decide +kernel) (by decide +kernel) (by decide +kernel), if_neg (by decide +kernel)]

/-- **C39** for unquantized inputs fails for activations: only the types of the table and the result are checked, while the
table size is `2^131071`. -/
theorem C39_unquantized_activation_accepted (r : KifRS) (h : r.kif.k = 0 ∨ r.kif.k = 1) (hs : r.kif.i + r.kif.f ≤ 64) :
    checkConf (tableConf .other r infKif) = .ok (tableConf .other r infKif) := by
  rw [C39_activation_layer _ _ _ h, if_neg (by omega)]

/-! Non-vacuity -/

example : checkConf (linConf (linTypes ⟨⟨1, 3, 4⟩, .RND, .SAT⟩ ⟨1, 7, 9⟩ ⟨1, 2, 3⟩ none)) =
    .ok [("weight_t", .inl "fixed<6,3>".toList), ("accum_t", .inl "fixed<17,8>".toList),
      ("result_t", .inl "fixed<8,4,RND,SAT>".toList), ("bias_t", .inl "fixed<17,8>".toList)] := by
  rw [C39_kernel_layer _ (by decide) (by decide) (by decide) (by decide), if_neg (by decide)]
  decide +kernel

example : checkConf (plainConf ⟨⟨1, 40, 25⟩, .TRN, .WRAP⟩) = .error "huge bitwidth" := by
  rw [C39_other_layer _ (.inr rfl), if_pos (by decide)]

example : checkConf (tableConf .sigmoid ⟨⟨0, 1, 7⟩, .RND, .SAT⟩ ⟨1, 3, 5⟩) =
    .ok [("table_t", .inl "ufixed<8,1,RND,SAT>".toList), ("table_size", .inr 512),
      ("result_t", .inl "ufixed<8,1,TRN,WRAP>".toList)] := by
  rw [C39_activation_layer _ _ _ (.inl rfl), if_neg (by decide)]
  decide +kernel

end HGQ
