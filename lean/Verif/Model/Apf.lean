import Verif.Model.Quantizer
import Mathlib.Data.Nat.Digits.Defs

/-!
Model of `apf_to_tuple` and `tuple_to_apf` in `/repo/src/HGQ/utils/utils.py`. Strings are lists of characters.
-/

namespace HGQ

/-- the character of a decimal digit.
Part of the integer fields of the f-strings at utils/utils.py lines 98-101. -/
def digitCh (d : ℕ) : Char := Char.ofNat (48 + d)

/-- decimal representation of a natural number, `f'{n}'`.
The integer fields of the f-strings at utils/utils.py lines 98-101. -/
def natRepr (n : ℕ) : List Char := if n = 0 then ['0'] else ((Nat.digits 10 n).map digitCh).reverse

/-- decimal representation of an integer, `f'{n}'`.
The integer fields of the f-strings at utils/utils.py lines 98-101. -/
def intRepr (n : ℤ) : List Char := if n < 0 then '-' :: natRepr n.natAbs else natRepr n.natAbs

/-- `tuple_to_apf`, utils.py lines 92-101. The default of `warp` is the literal `'WARP'`. -/
def tupleToApf (t : KIF) (rnd : List Char := "TRN".toList) (warp : List Char := "WARP".toList)
    (keepZeros : Bool := true) : List Char :=
  if !keepZeros && decide (t.i + t.f + t.k ≤ 0) then "nuke".toList
  else
    let pre := (if t.k = 0 then ['u'] else []) ++ "fixed<".toList ++ intRepr (max (t.i + t.f + t.k) 1) ++ [','] ++
      intRepr (t.i + t.k)
    if rnd ≠ "TRN".toList ∧ warp = "WARP".toList then pre ++ [','] ++ rnd ++ ['>']
    else if warp ≠ "WARP".toList then pre ++ [','] ++ rnd ++ [','] ++ warp ++ ['>']
    else pre ++ ['>']

/-- `\s` (ASCII). Pattern `_apf_m`, utils/utils.py line 77. -/
def isWs (c : Char) : Bool := c == ' ' || c == '\t' || c == '\n' || c == '\r' || c == '\x0b' || c == '\x0c'

/-- `\d` (ASCII). Pattern `_apf_m`, utils/utils.py line 77. -/
def isDig (c : Char) : Bool := decide (48 ≤ c.toNat) && decide (c.toNat ≤ 57)

/-- `\w` (ASCII). Pattern `_apf_m`, utils/utils.py line 77. -/
def isWord (c : Char) : Bool :=
  isDig c || (decide (65 ≤ c.toNat) && decide (c.toNat ≤ 90)) || (decide (97 ≤ c.toNat) && decide (c.toNat ≤ 122)) ||
    c == '_'

/-- `int(digits)`. utils/utils.py line 85. -/
def digitsVal (l : List Char) : ℕ := l.foldl (fun a c => a * 10 + (c.toNat - 48)) 0

/-- a literal prefix. The literal parts of the pattern at utils/utils.py line 77. -/
def eatLit : List Char → List Char → Option (List Char)
  | [], s => some s
  | c :: cs, d :: s => if c = d then eatLit cs s else none
  | _ :: _, [] => none

/-- `\d+`, greedy. Pattern `_apf_m`, utils/utils.py line 77. -/
def eatDigits (s : List Char) : Option (List Char × List Char) :=
  let d := s.takeWhile isDig
  if d = [] then none else some (d, s.dropWhile isDig)

/-- `_apf_m.match`, utils.py line 77: `\s*(?:|)(u?)fixed<\s*(\d+)\s*,\s*(-?\d+)[\s,_\w]*>\s*`. Every repetition is
followed by characters outside its class (or, for the second `\d+`, by a class containing the digits), so greedy
matching without backtracking decides the regular expression. `match` ignores what follows the match.
ASCII classes only. -/
def apfMatch (s : List Char) : Option (Bool × ℕ × ℤ) := do
  let s := s.dropWhile isWs
  let (u, s) := match s with
    | 'u' :: s' => (true, s')
    | _ => (false, s)
  let s ← eatLit "fixed<".toList s
  let s := s.dropWhile isWs
  let (b, s) ← eatDigits s
  let s := s.dropWhile isWs
  let s ← eatLit [','] s
  let s := s.dropWhile isWs
  let (neg, s) := match s with
    | '-' :: s' => (true, s')
    | _ => (false, s)
  let (i, s) ← eatDigits s
  let s := s.dropWhile fun c => isWs c || c == ',' || isWord c
  let _ ← eatLit ['>'] s
  return (u, digitsVal b, if neg then -(digitsVal i : ℤ) else digitsVal i)

/-- `apf_to_tuple`, utils.py lines 80-89; `none` is the failed assertion. -/
def apfToTuple (s : List Char) : Option KIF := do
  let (u, b, i) ← apfMatch s
  let kn : ℤ := if u then 0 else 1
  return ⟨kn, i - kn, b - i⟩

end HGQ
