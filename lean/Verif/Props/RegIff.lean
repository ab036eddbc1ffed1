import Verif.Props.Import

/-!
C95, exactly: which registrations do the same with the patch on Python 3.10 as on Python 3.11.
-/

namespace Spec

open HGQ.Import

/-- the two Python versions agree: both raise, or both register and every later call picks the same implementation -/
def sameOutcome {I : Type} (a b : Except String (Registry I)) : Prop :=
  match a, b with
  | .ok t, .ok t' => ∀ mro, dispatch t mro = dispatch t' mro
  | .error _, .error _ => True
  | _, _ => False

/-- `register(A | B, f)` and annotations with `typing.Union` do nothing, so they agree only for unions without members; `typing.Union` in the place
of a class raises only on Python 3.10; annotations that are neither classes nor unions raise only on Python 3.11; everything else agrees -/
def agrees {I : Type} : Reg I → Prop
  | .direct (.union cs) _ => cs = []
  | .annotated (.typingUnion cs) _ => cs = []
  | .direct (.typingUnion _) _ => False
  | .decorator (.typingUnion _) _ => False
  | .annotated .other _ => False
  | _ => True

end Spec

namespace HGQ.Import

variable {I : Type}

/-- **C95**, exactly: a registration has the same outcome on both Python versions, whatever has been registered before, if and only if it is of one of
the forms of `Spec.agrees` -/
theorem C95_iff (g : Reg I) : (∀ r : Registry I, Spec.sameOutcome (patched r g) (native r g)) ↔ Spec.agrees g := by
  -- a union without effect is noticed in an empty registry
  have lost : ∀ (cs : List ℕ) (f : I), (∀ r : Registry I, ∀ mro, dispatch r mro = dispatch (insertAll r cs f) mro) ↔ cs = [] := by
    intro cs f
    constructor
    · intro h
      cases cs with
      | nil => rfl
      | cons c cs =>
        have := h [] [c]
        simp only [dispatch, lookup_insertAll f c (c :: cs) [] (by simp)] at this
        cases this
    · rintro rfl r mro
      rfl
  match g with
  | .direct (.cls _) _ => exact iff_of_true (fun _ _ => rfl) trivial
  | .direct (.union cs) f => exact lost cs f
  | .direct (.typingUnion _) _ => exact iff_of_false (fun h => h []) id
  | .direct .other _ => exact iff_of_true (fun _ => trivial) trivial
  | .decorator (.cls _) _ => exact iff_of_true (fun _ _ => rfl) trivial
  | .decorator (.union _) _ => exact iff_of_true (fun _ _ => rfl) trivial
  | .decorator (.typingUnion _) _ => exact iff_of_false (fun h => h []) id
  | .decorator .other _ => exact iff_of_true (fun _ => trivial) trivial
  | .annotated (.cls _) _ => exact iff_of_true (fun _ _ => rfl) trivial
  | .annotated (.union _) _ => exact iff_of_true (fun _ _ => rfl) trivial
  | .annotated (.typingUnion cs) f => exact lost cs f
  | .annotated .other _ => exact iff_of_false (fun h => h []) id

-- forms on both sides: the one used by the package, and one that is lost
example : Spec.agrees (.annotated (.union [2, 3]) "f") ∧ ¬ Spec.agrees (.direct (.union [2, 3]) "f") := ⟨trivial, List.cons_ne_nil _ _⟩

end HGQ.Import
