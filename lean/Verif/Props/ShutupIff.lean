import Verif.Props.Import

/-!
C96, exactly: programs that use the silencer in any way, also nested.
-/

namespace Spec
open HGQ.Import (Stmt)

mutual
/-- an exception leaves the statement -/
def raised : Stmt → Bool
  | .raise => true
  | .silenced body => raisedIn body
  | _ => false
/-- an exception leaves the code -/
def raisedIn : List Stmt → Bool
  | [] => false
  | s :: ss => raised s || raisedIn ss
end

/-- a silenced block is entered, before any exception -/
def entered : List Stmt → Bool
  | [] => false
  | .silenced _ :: _ => true
  | .raise :: _ => false
  | _ :: ss => entered ss

/-- a silenced block is entered inside another one, before any exception -/
def nestedUse : List Stmt → Bool
  | [] => false
  | .silenced body :: ss => entered body || (!raisedIn body && nestedUse ss)
  | .raise :: _ => false
  | _ :: ss => nestedUse ss

/-- what appears: the output outside silenced blocks, up to the first exception or the first nested use. `o`, `e`: standard output and standard error. -/
def appears (o e : ℕ) : List Stmt → List (ℕ × String)
  | [] => []
  | .print s :: ss => (o, s) :: appears o e ss
  | .complain s :: ss => (e, s) :: appears o e ss
  | .raise :: _ => []
  | .silenced body :: ss => if entered body || raisedIn body then [] else appears o e ss

end Spec

namespace HGQ.Import
open Spec

/-- the silencer has forgotten the real streams -/
def PyState.forgotten (st : PyState) : PyState := { st with savedOut := some .silencer, savedErr := some .silencer }

/-- silenced code: nothing appears, the streams stay silenced, and the real streams are forgotten if another silenced block is entered -/
theorem exec_silenced : ∀ (body : List Stmt) (st : PyState), st.out = .silencer → st.err = .silencer →
    execAll st body = (if entered body then st.forgotten else st, raisedIn body)
  | [], st, _, _ => by simp [execAll, entered, raisedIn]
  | .print x :: ss, st, ho, he => by
    have ih := exec_silenced ss st ho he
    simp only [execAll, Stmt.exec, PyState.write, ho, Bool.false_eq_true, if_false, ih, entered, raisedIn, raised, Bool.false_or]
    rfl
  | .complain x :: ss, st, ho, he => by
    have ih := exec_silenced ss st ho he
    simp only [execAll, Stmt.exec, PyState.write, he, Bool.false_eq_true, if_false, ih, entered, raisedIn, raised, Bool.false_or]
    rfl
  | .raise :: ss, st, ho, he => by simp [execAll, Stmt.exec, entered, raisedIn, raised]
  | .silenced b :: ss, st, ho, he => by
    have h1 := exec_silenced b st.enter rfl rfl
    have h2 : (if entered b then st.enter.forgotten else st.enter).exit = st.forgotten := by
      obtain ⟨o, e, so, se, l⟩ := st
      simp only at ho he
      subst ho he
      split <;> rfl
    have h3 := exec_silenced ss st.forgotten ho he
    have h4 : (if entered ss then st.forgotten.forgotten else st.forgotten) = st.forgotten := by split <;> rfl
    rw [h4] at h3
    simp only [execAll, Stmt.exec, h1, h2, h3, entered, raisedIn, raised, if_true]
    cases raisedIn b <;> simp

/-- **C96**, exactly, for every program, however it nests silenced blocks: standard output and standard error are afterwards what they were before if
and only if no silenced block was entered inside another one; if one was, both stay silenced for ever. What has appeared, and that exceptions get
through, is stated for all programs. -/
theorem C96_iff (o e : ℕ) : ∀ (p : List Stmt) (st : PyState), st.out = .real o → st.err = .real e →
    (((execAll st p).1.out = .real o ∧ (execAll st p).1.err = .real e) ↔ nestedUse p = false) ∧
    (nestedUse p = true → (execAll st p).1.out = .silencer ∧ (execAll st p).1.err = .silencer) ∧
    (execAll st p).1.log = st.log ++ appears o e p ∧ (execAll st p).2 = raisedIn p
  | [], st, ho, he => by simp [execAll, nestedUse, appears, raisedIn, ho, he]
  | .print x :: ss, st, ho, he => by
    have ih := C96_iff o e ss (st.write st.out x) (by simp [PyState.write, ho]) (by simp [PyState.write, ho, he])
    have hl : (st.write st.out x).log = st.log ++ [(o, x)] := by simp [PyState.write, ho]
    rw [hl] at ih
    simpa [execAll, Stmt.exec, nestedUse, appears, raisedIn, raised] using ih
  | .complain x :: ss, st, ho, he => by
    have ih := C96_iff o e ss (st.write st.err x) (by simp [PyState.write, he, ho]) (by simp [PyState.write, he])
    have hl : (st.write st.err x).log = st.log ++ [(e, x)] := by simp [PyState.write, he]
    rw [hl] at ih
    simpa [execAll, Stmt.exec, nestedUse, appears, raisedIn, raised] using ih
  | .raise :: ss, st, ho, he => by simp [execAll, Stmt.exec, nestedUse, appears, raisedIn, raised, ho, he]
  | .silenced b :: ss, st, ho, he => by
    have h1 := exec_silenced b st.enter rfl rfl
    simp only [execAll, Stmt.exec, h1, nestedUse, appears, raisedIn, raised]
    cases hb : entered b with
    | true =>
      simp only [if_true, Bool.true_or]
      have h2 := exec_silenced ss st.enter.forgotten.exit rfl rfl
      cases hr : raisedIn b with
      | true => simp [PyState.enter, PyState.exit, PyState.forgotten]
      | false =>
        simp only [Bool.false_eq_true, if_false, Bool.false_or, h2]
        split <;> simp [PyState.enter, PyState.exit, PyState.forgotten]
    | false =>
      simp only [Bool.false_eq_true, if_false, Bool.false_or]
      have ih := C96_iff o e ss st.enter.exit (by simp [PyState.enter, PyState.exit, ho]) (by simp [PyState.enter, PyState.exit, he])
      cases hr : raisedIn b with
      | true => simp [PyState.enter, PyState.exit, ho, he]
      | false =>
        simp only [Bool.false_eq_true, if_false, Bool.not_false, Bool.true_and, Bool.false_or]
        have hl : st.enter.exit.log = st.log := rfl
        rw [hl] at ih
        exact ih

-- nested use in the second block only; an exception before the inner block prevents it
example : let st : PyState := ⟨.real 1, .real 2, none, none, []⟩
    nestedUse [.silenced [.print "a"], .print "b", .silenced [.print "c", .silenced []], .print "d"] = true ∧
    (execAll st [.silenced [.print "a"], .print "b", .silenced [.print "c", .silenced []], .print "d"]).1.log = [(1, "b")] ∧
    nestedUse [.silenced [.raise, .silenced []]] = false ∧ (execAll st [.silenced [.raise, .silenced []]]).1.out = .real 1 := by decide +kernel

end HGQ.Import
