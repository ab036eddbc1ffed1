import Mathlib.Data.List.Basic

/-!
Model of what importing HGQ does to Python itself: the patch of `functools.singledispatch` for Python 3.10
(`/repo/src/HGQ/_patch.py`) and the output silencer (`/repo/src/HGQ/__init__.py` lines 13-43).
-/

namespace HGQ.Import

/-! ### single dispatch -/

/-- what stands where a class is expected: a class, `A | B` (`types.UnionType`), `typing.Union[A, B]`, or anything else.
Classes are numbered. _patch.py lines 16, 18, 27, 29. -/
inductive Key
  | cls (c : ℕ)
  | union (cs : List ℕ)
  | typingUnion (cs : List ℕ)
  | other
  deriving DecidableEq, Repr

/-- the ways to register an implementation `f` with a generic function `g`. _patch.py lines 14-34. -/
inductive Reg (I : Type)
  /-- `g.register(key, f)` -/
  | direct (k : Key) (f : I)
  /-- `@g.register(key)` above `f` -/
  | decorator (k : Key) (f : I)
  /-- `@g.register` above `f`, whose first annotation is `key` -/
  | annotated (k : Key) (f : I)

/-- `registry`: implementations by class, the last one registered first. The table behind
`functools.singledispatch`, filled at _patch.py lines 14-33. -/
abbrev Registry (I : Type) := List (ℕ × I)

/-- `for t in cls.__args__: _register(t, func)`, _patch.py lines 20-21 and 30-31 -/
def insertAll {I : Type} (r : Registry I) (cs : List ℕ) (f : I) : Registry I := cs.foldl (fun r c => (c, f) :: r) r

/-- `singledispatch.register` of Python 3.11, which _patch.py lines 6-36 stand in for on Python 3.10: unions of both kinds are
accepted in each form, anything else raises. -/
def native {I : Type} (r : Registry I) : Reg I → Except String (Registry I)
  | .direct k f | .decorator k f | .annotated k f => match k with
    | .cls c => .ok ((c, f) :: r)
    | .union cs => .ok (insertAll r cs f)
    | .typingUnion cs => .ok (insertAll r cs f)
    | .other => .error "TypeError"

/-- the patched `register`, _patch.py lines 14-33, on top of the `register` of Python 3.10 (`_register`, classes only).
`register(A | B, f)` returns a decorator and forgets `f` (lines 18-23). For a function whose annotation is neither a class nor
`A | B` it returns without doing anything (lines 27-32). Something else in the place of a class is taken for a function
(lines 25-26), where `get_type_hints` raises. -/
def patched {I : Type} (r : Registry I) : Reg I → Except String (Registry I)
  | .direct k f => match k with
    | .cls c => .ok ((c, f) :: r)
    | .union _ => .ok r
    | .typingUnion _ => .error "TypeError"
    | .other => .error "TypeError"
  | .decorator k f => match k with
    | .cls c => .ok ((c, f) :: r)
    | .union cs => .ok (insertAll r cs f)
    | .typingUnion _ => .error "TypeError"
    | .other => .error "TypeError"
  | .annotated k f => match k with
    | .cls c => .ok ((c, f) :: r)
    | .union cs => .ok (insertAll r cs f)
    | .typingUnion _ => .ok r
    | .other => .ok r

/-- a module's registrations in order. _patch.py lines 14-34. -/
def registerAll {I : Type} (step : Registry I → Reg I → Except String (Registry I)) :
    Registry I → List (Reg I) → Except String (Registry I)
  | r, [] => .ok r
  | r, g :: gs => do registerAll step (← step r g) gs

/-- calling the generic function: the implementation of the first class along the method resolution order of the argument's
class that has one (classes without virtual subclasses). functools.singledispatch, used at proxy/convert.py lines 173-344. -/
def dispatch {I : Type} (r : Registry I) : List ℕ → Option I
  | [] => none
  | c :: mro => match r.lookup c with
    | some f => some f
    | none => dispatch r mro

/-! ### the silencer -/

/-- a stream: one that existed before, or the silencer. __init__.py lines 13-18. -/
inductive Stream
  | real (n : ℕ)
  | silencer
  deriving DecidableEq, Repr

/-- `sys.stdout`, `sys.stderr`, the two attributes of the silencer, and what was written to real streams.
__init__.py lines 20-29. -/
structure PyState where
  out : Stream
  err : Stream
  savedOut : Option Stream
  savedErr : Option Stream
  log : List (ℕ × String)
  deriving DecidableEq, Repr

/-- Python code inside and around `with shutup:` (src/HGQ/__init__.py lines 13-43), as far as the streams are concerned -/
inductive Stmt
  /-- writes to `sys.stdout` -/
  | print (s : String)
  /-- writes to `sys.stderr` -/
  | complain (s : String)
  /-- raises an exception -/
  | raise
  /-- `with shutup: ...` -/
  | silenced (body : List Stmt)

/-- `write`: the silencer drops it. __init__.py lines 14-15. -/
def PyState.write (st : PyState) (w : Stream) (s : String) : PyState :=
  match w with
  | .real n => { st with log := st.log ++ [(n, s)] }
  | .silencer => st

/-- `Shutup.__enter__`, __init__.py lines 20-25 -/
def PyState.enter (st : PyState) : PyState :=
  let st := { st with savedOut := some st.out }
  let st := { st with out := .silencer }
  let st := { st with savedErr := some st.err }
  { st with err := .silencer }

/-- `Shutup.__exit__`, __init__.py lines 27-29 (`__enter__` has run, so the attributes exist) -/
def PyState.exit (st : PyState) : PyState :=
  { st with out := st.savedOut.getD st.out, err := st.savedErr.getD st.err }

mutual
/-- one statement; the flag says whether an exception is under way. `__exit__` runs in any case and does not swallow it.
__init__.py lines 20-43. -/
def Stmt.exec (st : PyState) : Stmt → PyState × Bool
  | .print s => (st.write st.out s, false)
  | .complain s => (st.write st.err s, false)
  | .raise => (st, true)
  | .silenced body =>
    let (st', e) := execAll st.enter body
    (st'.exit, e)
/-- statements in order, up to an exception. __init__.py lines 37-43. -/
def execAll (st : PyState) : List Stmt → PyState × Bool
  | [] => (st, false)
  | s :: ss =>
    let (st', e) := Stmt.exec st s
    if e then (st', true) else execAll st' ss
end

end HGQ.Import
