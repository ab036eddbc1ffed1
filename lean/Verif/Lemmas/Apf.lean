import Verif.Model.Apf
import Mathlib.Tactic.Linarith
import Mathlib.Tactic.IntervalCases

namespace HGQ

theorem isDig_digitCh {d : ℕ} (h : d < 10) : isDig (digitCh d) = true := by
  interval_cases d <;> decide

theorem toNat_digitCh {d : ℕ} (h : d < 10) : (digitCh d).toNat = 48 + d := by
  interval_cases d <;> decide

theorem natRepr_dig (n : ℕ) : ∀ c ∈ natRepr n, isDig c = true := by
  unfold natRepr
  split_ifs with h
  · intro c hc; simp only [List.mem_singleton] at hc; subst hc; decide
  · intro c hc
    rw [List.mem_reverse, List.mem_map] at hc
    obtain ⟨d, hd, rfl⟩ := hc
    exact isDig_digitCh (Nat.digits_lt_base (by norm_num) hd)

theorem natRepr_ne (n : ℕ) : natRepr n ≠ [] := by
  unfold natRepr
  split_ifs with h
  · simp
  · simp [Nat.digits_ne_nil_iff_ne_zero.mpr h]

theorem digitsVal_append (l : List Char) (c : Char) : digitsVal (l ++ [c]) = digitsVal l * 10 + (c.toNat - 48) := by
  unfold digitsVal; rw [List.foldl_append]; rfl

theorem digitsVal_rev (l : List ℕ) (h : ∀ d ∈ l, d < 10) : digitsVal (l.map digitCh).reverse = Nat.ofDigits 10 l := by
  induction l with
  | nil => rfl
  | cons a l ih =>
    rw [List.map_cons, List.reverse_cons, digitsVal_append, ih (fun d hd => h d (by simp [hd])),
      toNat_digitCh (h a (by simp)), Nat.ofDigits_cons]
    omega

theorem digitsVal_natRepr (n : ℕ) : digitsVal (natRepr n) = n := by
  unfold natRepr
  split_ifs with h
  · subst h; rfl
  · rw [digitsVal_rev _ (fun d hd => Nat.digits_lt_base (by norm_num) hd), Nat.ofDigits_digits]

theorem takeWhile_stop (p : Char → Bool) (l : List Char) (h : ∀ c ∈ l, p c = true) (c : Char) (r : List Char)
    (hc : p c = false) : (l ++ c :: r).takeWhile p = l ∧ (l ++ c :: r).dropWhile p = c :: r := by
  induction l with
  | nil => simp [hc]
  | cons a l ih =>
    have ha := h a (by simp)
    obtain ⟨h1, h2⟩ := ih (fun c hc => h c (by simp [hc]))
    simp [ha, h1, h2]

theorem eatDigits_natRepr (n : ℕ) (c : Char) (r : List Char) (hc : isDig c = false) :
    eatDigits (natRepr n ++ c :: r) = some (natRepr n, c :: r) := by
  obtain ⟨h1, h2⟩ := takeWhile_stop isDig (natRepr n) (natRepr_dig n) c r hc
  unfold eatDigits
  simp only [h1, h2, if_neg (natRepr_ne n)]

theorem natRepr_cons (n : ℕ) : ∃ c l, natRepr n = c :: l ∧ isDig c = true := by
  cases h : natRepr n with
  | nil => exact absurd h (natRepr_ne n)
  | cons c l => exact ⟨c, l, rfl, natRepr_dig n c (by simp [h])⟩

theorem isWs_of_dig {c : Char} (h : isDig c = true) : isWs c = false := by
  by_contra hw
  rw [Bool.not_eq_false] at hw
  unfold isWs at hw
  simp only [Bool.or_eq_true, beq_iff_eq] at hw
  rcases hw with ((((rfl | rfl) | rfl) | rfl) | rfl) | rfl <;> revert h <;> decide

theorem dropWs_natRepr (n : ℕ) (r : List Char) : (natRepr n ++ r).dropWhile isWs = natRepr n ++ r := by
  obtain ⟨c, l, h, hc⟩ := natRepr_cons n
  rw [h]; simp [isWs_of_dig hc]

theorem dropWs_intRepr (n : ℤ) (r : List Char) : (intRepr n ++ r).dropWhile isWs = intRepr n ++ r := by
  unfold intRepr
  split_ifs
  · simp [isWs]
  · exact dropWs_natRepr _ _

/-- the tail of a printed type: the modes, then `>` -/
theorem apfMatch_print (u : Bool) (b : ℕ) (i : ℤ) (modes tail : List Char)
    (hm : ∀ c ∈ modes, (isWs c || c == ',' || isWord c) = true) (hd : ∀ c ∈ modes.head?, isDig c = false) :
    apfMatch ((if u then ['u'] else []) ++ "fixed<".toList ++ natRepr b ++ [','] ++ intRepr i ++ modes ++ '>' :: tail)
      = some (u, b, i) := by
  have hlit : ∀ r, eatLit "fixed<".toList ("fixed<".toList ++ r) = some r := by intro r; rfl
  have hgt : eatLit ['>'] ('>' :: tail) = some tail := rfl
  have hcls : (isWs '>' || '>' == ',' || isWord '>') = false := by decide
  obtain ⟨-, hdrop⟩ := takeWhile_stop (fun c => isWs c || c == ',' || isWord c) modes hm '>' tail hcls
  -- the character following the second number
  obtain ⟨c, r, hcr, hcd⟩ : ∃ c r, modes ++ '>' :: tail = c :: r ∧ isDig c = false := by
    cases hmo : modes with
    | nil => exact ⟨'>', tail, rfl, by decide⟩
    | cons c l => exact ⟨c, l ++ '>' :: tail, rfl, hd c (by simp [hmo])⟩
  have hint : (let (neg, s) := match intRepr i ++ (modes ++ '>' :: tail) with
        | '-' :: s' => (true, s')
        | s => (false, s)
      (do let (i, s) ← eatDigits s
          let s := s.dropWhile fun c => isWs c || c == ',' || isWord c
          let _ ← eatLit ['>'] s
          return (u, b, if neg then -(digitsVal i : ℤ) else digitsVal i) : Option (Bool × ℕ × ℤ))) = some (u, b, i) := by
    unfold intRepr
    split_ifs with hneg
    · simp only [List.cons_append]
      rw [hcr, eatDigits_natRepr _ _ _ hcd]
      simp only [← hcr, hdrop, Option.bind_eq_bind, Option.bind_some, hgt, digitsVal_natRepr, if_true]
      simp only [pure, Option.some.injEq, Prod.mk.injEq, true_and]
      omega
    · obtain ⟨d, l, hdl, hdd⟩ := natRepr_cons i.natAbs
      have hne : ∀ s', natRepr i.natAbs ++ (modes ++ '>' :: tail) ≠ '-' :: s' := by
        intro s' h; rw [hdl] at h
        have : d = '-' := by simpa using (List.cons.inj h).1
        subst this; revert hdd; decide
      have hmatch : (match natRepr i.natAbs ++ (modes ++ '>' :: tail) with
          | '-' :: s' => (true, s')
          | s => (false, s)) = (false, natRepr i.natAbs ++ (modes ++ '>' :: tail)) := by
        split
        · next s' h => exact absurd h (hne s')
        · rfl
      rw [hmatch]
      simp only
      rw [hcr, eatDigits_natRepr _ _ _ hcd]
      simp only [← hcr, hdrop, Option.bind_eq_bind, Option.bind_some, hgt, digitsVal_natRepr]
      simp only [pure, Option.some.injEq, Prod.mk.injEq, true_and, Bool.false_eq_true, if_false]
      omega
  have hrest : ∀ r, (natRepr b ++ ',' :: r).dropWhile isWs = natRepr b ++ ',' :: r := fun r => dropWs_natRepr b _
  unfold apfMatch
  have hcomma : isDig ',' = false := by decide
  have hws : (',' :: (intRepr i ++ (modes ++ '>' :: tail))).dropWhile isWs = ',' :: (intRepr i ++ (modes ++ '>' :: tail)) := by
    simp [isWs]
  have hlc : ∀ r, eatLit [','] (',' :: r) = some r := fun r => rfl
  have key : ∀ (s : List Char), s = natRepr b ++ ',' :: (intRepr i ++ (modes ++ '>' :: tail)) →
      (do
        let s := s.dropWhile isWs
        let (b, s) ← eatDigits s
        let s := s.dropWhile isWs
        let s ← eatLit [','] s
        let s := s.dropWhile isWs
        let (neg, s) := match s with
          | '-' :: s' => (true, s')
          | _ => (false, s)
        let (i, s) ← eatDigits s
        let s := s.dropWhile fun c => isWs c || c == ',' || isWord c
        let _ ← eatLit ['>'] s
        return (u, digitsVal b, if neg then -(digitsVal i : ℤ) else digitsVal i) : Option (Bool × ℕ × ℤ))
      = some (u, b, i) := by
    intro s hs
    subst hs
    rw [hrest]
    simp only [Option.bind_eq_bind]
    rw [eatDigits_natRepr _ _ _ hcomma]
    simp only [Option.bind_some]
    rw [hws, hlc]
    simp only [Option.bind_some, dropWs_intRepr, digitsVal_natRepr]
    have := hint
    simp only [Option.bind_eq_bind] at this
    revert this
    split <;> intro this <;> simpa using this
  cases u
  · have e : ((if false = true then ['u'] else []) ++ "fixed<".toList ++ natRepr b ++ [','] ++ intRepr i ++ modes ++ '>' :: tail)
      = "fixed<".toList ++ (natRepr b ++ ',' :: (intRepr i ++ (modes ++ '>' :: tail))) := by simp
    rw [e]
    have h1 : ∀ r, ("fixed<".toList ++ r).dropWhile isWs = "fixed<".toList ++ r := fun r => rfl
    rw [h1]
    exact key _ rfl
  · have e : ((if true = true then ['u'] else []) ++ "fixed<".toList ++ natRepr b ++ [','] ++ intRepr i ++ modes ++ '>' :: tail)
      = 'u' :: ("fixed<".toList ++ (natRepr b ++ ',' :: (intRepr i ++ (modes ++ '>' :: tail)))) := by simp
    rw [e]
    have h1 : ∀ r, ('u' :: ("fixed<".toList ++ r)).dropWhile isWs = 'u' :: ("fixed<".toList ++ r) := fun r => rfl
    rw [h1]
    exact key _ rfl

end HGQ
