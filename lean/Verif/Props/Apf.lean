import Verif.Lemmas.Apf

/-!
C40: `fixed<..>` strings round-trip through `tuple_to_apf` / `apf_to_tuple`.
-/

namespace HGQ

/-- names of rounding and overflow modes consist of letters, digits and underscores -/
def WordChars (l : List Char) : Prop := ∀ c ∈ l, isWord c = true

theorem apfToTuple_print (t : KIF) (hk : t.k = 0 ∨ t.k = 1) (rnd warp : List Char) (hr : WordChars rnd)
    (hw : WordChars warp) (kz : Bool) (hz : kz = true ∨ 1 ≤ t.k + t.i + t.f) :
    apfToTuple (tupleToApf t rnd warp kz) = some ⟨t.k, t.i, max (t.i + t.f + t.k) 1 - (t.i + t.k)⟩ := by
  have hnk : (!kz && decide (t.i + t.f + t.k ≤ 0)) = false := by
    rcases hz with h | h
    · simp [h]
    · have : ¬ (t.i + t.f + t.k ≤ 0) := by omega
      simp [this]
  have hb : ∃ b : ℕ, max (t.i + t.f + t.k) 1 = b := ⟨(max (t.i + t.f + t.k) 1).toNat, by omega⟩
  obtain ⟨b, hb⟩ := hb
  have hbr : intRepr (max (t.i + t.f + t.k) 1) = natRepr b := by
    rw [hb]; unfold intRepr; rw [if_neg (by omega)]; simp
  have hcls : ∀ l : List Char, WordChars l → ∀ c ∈ l, (isWs c || c == ',' || isWord c) = true := by
    intro l h c hc; simp [h c hc]
  have hcom : (isWs ',' || ',' == ',' || isWord ',') = true := by decide
  obtain ⟨modes, hm, hd, hp⟩ : ∃ modes : List Char, (∀ c ∈ modes, (isWs c || c == ',' || isWord c) = true) ∧
      (∀ c ∈ modes.head?, isDig c = false) ∧
      tupleToApf t rnd warp kz = (if (decide (t.k = 0)) then ['u'] else []) ++ "fixed<".toList ++ natRepr b ++ [','] ++
        intRepr (t.i + t.k) ++ modes ++ '>' :: [] := by
    have hu : (if t.k = 0 then ['u'] else []) = if (decide (t.k = 0)) = true then ['u'] else [] := by simp
    unfold tupleToApf
    rw [if_neg (by rw [hnk]; simp), hbr, hu]
    simp only
    generalize (if decide (t.k = 0) = true then ['u'] else []) = pre
    split_ifs with h1 h2
    · refine ⟨',' :: rnd, ?_, by simp; decide, by simp⟩
      intro c hc
      rcases List.mem_cons.mp hc with rfl | hc
      · exact hcom
      · exact hcls _ hr c hc
    · refine ⟨',' :: (rnd ++ ',' :: warp), ?_, by simp; decide, by simp⟩
      intro c hc
      rcases List.mem_cons.mp hc with rfl | hc
      · exact hcom
      · rcases List.mem_append.mp hc with hc | hc
        · exact hcls _ hr c hc
        · rcases List.mem_cons.mp hc with rfl | hc
          · exact hcom
          · exact hcls _ hw c hc
    · exact ⟨[], by simp, by simp, by simp⟩
  unfold apfToTuple
  rw [hp, apfMatch_print _ _ _ _ _ hm hd, hb]
  rcases hk with hk | hk <;> simp [hk]

/-- C40: printing and parsing returns the tuple, for every rounding and overflow mode name, if the width is at
least 1. -/
theorem C40_roundtrip (t : KIF) (hk : t.k = 0 ∨ t.k = 1) (hw1 : 1 ≤ t.k + t.i + t.f) (rnd warp : List Char)
    (hr : WordChars rnd) (hw : WordChars warp) (keepZeros : Bool) :
    apfToTuple (tupleToApf t rnd warp keepZeros) = some t := by
  rw [apfToTuple_print t hk rnd warp hr hw keepZeros (.inr hw1)]
  congr 1
  cases t
  simp only [KIF.mk.injEq, true_and]
  simp only at hw1
  omega

/-- C40, width 0 or less: the type is printed with one bit, i.e. with `1 - k - i` fractional bits. -/
theorem C40_padded (t : KIF) (hk : t.k = 0 ∨ t.k = 1) (hw1 : t.k + t.i + t.f ≤ 0) (rnd warp : List Char)
    (hr : WordChars rnd) (hw : WordChars warp) :
    apfToTuple (tupleToApf t rnd warp true) = some ⟨t.k, t.i, 1 - t.k - t.i⟩ := by
  rw [apfToTuple_print t hk rnd warp hr hw true (.inl rfl)]
  congr 1
  simp only [KIF.mk.injEq, true_and]
  omega

/-- C40, `keep_zeros=False`: a type without bits is printed as `nuke`, which does not parse. -/
theorem C40_nuke (t : KIF) (hw1 : t.k + t.i + t.f ≤ 0) (rnd warp : List Char) :
    tupleToApf t rnd warp false = "nuke".toList ∧ apfToTuple (tupleToApf t rnd warp false) = none := by
  have : tupleToApf t rnd warp false = "nuke".toList := by
    unfold tupleToApf
    rw [if_pos (by simp; omega)]
  rw [this]
  exact ⟨rfl, by decide +kernel⟩

/-- distinct types with at least one bit have distinct strings, whatever the modes -/
theorem C40_injective (t t' : KIF) (hk : t.k = 0 ∨ t.k = 1) (hk' : t'.k = 0 ∨ t'.k = 1) (h : 1 ≤ t.k + t.i + t.f)
    (h' : 1 ≤ t'.k + t'.i + t'.f) (r w r' w' : List Char) (hr : WordChars r) (hw : WordChars w) (hr' : WordChars r')
    (hw' : WordChars w') (he : tupleToApf t r w = tupleToApf t' r' w') : t = t' := by
  have h1 := C40_roundtrip t hk h r w hr hw true
  have h2 := C40_roundtrip t' hk' h' r' w' hr' hw' true
  rw [he] at h1
  exact Option.some.inj (h1.symm.trans h2)

example : WordChars "RND_CONV".toList ∧ WordChars "SAT_SYM".toList := by
  constructor <;> (intro c hc; revert c hc; decide)

example : tupleToApf ⟨1, -3, 12⟩ "RND_CONV".toList "SAT_SYM".toList = "fixed<10,-2,RND_CONV,SAT_SYM>".toList ∧
    tupleToApf ⟨0, 4, 8⟩ = "ufixed<12,4>".toList ∧ tupleToApf ⟨0, -4, 2⟩ "RND".toList = "ufixed<1,-4,RND>".toList ∧
    apfToTuple " fixed< 16 , 6, AP_RND>".toList = some ⟨1, 5, 10⟩ ∧ apfToTuple "ap_fixed<16,6>".toList = none ∧
    tupleToApf ⟨1, 0, -3⟩ (keepZeros := false) = "nuke".toList := by decide +kernel

end HGQ
