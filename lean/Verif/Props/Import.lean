import Verif.Model.Import

/-!
C95: generic functions dispatch alike on all supported Python versions. C96: the output silencer gives the streams back.
-/

namespace HGQ.Import

/-! ### C95 -/

variable {I : Type}

/-- the ways of registering the package relies on: a class in any form; `A | B` as annotation or with a decorator -/
def Reg.Used : Reg I → Prop
  | .direct (.cls _) _ => True
  | .decorator (.cls _) _ => True
  | .decorator (.union _) _ => True
  | .annotated (.cls _) _ => True
  | .annotated (.union _) _ => True
  | _ => False

theorem patched_eq_native {r : Registry I} {g : Reg I} (h : g.Used) : patched r g = native r g := by
  match g, h with
  | .direct (.cls _) _, _ => rfl
  | .decorator (.cls _) _, _ => rfl
  | .decorator (.union _) _, _ => rfl
  | .annotated (.cls _) _, _ => rfl
  | .annotated (.union _) _, _ => rfl

/-- **C95** (partial). A generic function whose implementations are registered in the ways the package uses picks, for an
argument of any class (any method resolution order), the same implementation on Python 3.10 with the patch as on Python
3.11, and neither raises while registering. Missing: the other ways (`C95_lost_registrations`). -/
theorem C95_same_dispatch_partial (r : Registry I) (gs : List (Reg I)) (h : ∀ g ∈ gs, g.Used) :
    ∃ t t', registerAll patched r gs = .ok t ∧ registerAll native r gs = .ok t' ∧
      ∀ mro, dispatch t mro = dispatch t' mro := by
  suffices H : ∃ t, registerAll patched r gs = .ok t ∧ registerAll native r gs = .ok t by
    obtain ⟨t, h1, h2⟩ := H
    exact ⟨t, t, h1, h2, fun _ => rfl⟩
  induction gs generalizing r with
  | nil => exact ⟨r, rfl, rfl⟩
  | cons g gs ih =>
    have hg := h g (by simp)
    have hok : ∃ r', native r g = .ok r' := by
      match g, hg with
      | .direct (.cls c) f, _ => exact ⟨_, rfl⟩
      | .decorator (.cls c) f, _ => exact ⟨_, rfl⟩
      | .decorator (.union cs) f, _ => exact ⟨_, rfl⟩
      | .annotated (.cls c) f, _ => exact ⟨_, rfl⟩
      | .annotated (.union cs) f, _ => exact ⟨_, rfl⟩
    obtain ⟨r', hr'⟩ := hok
    obtain ⟨t, h1, h2⟩ := ih r' fun g hg => h g (by simp [hg])
    refine ⟨t, ?_, ?_⟩
    · simp only [registerAll, bind, Except.bind, patched_eq_native hg, hr', h1]
    · simp only [registerAll, bind, Except.bind, hr', h2]

theorem lookup_insertAll (f : I) (c : ℕ) : ∀ (cs : List ℕ) (r : Registry I), c ∈ cs → (insertAll r cs f).lookup c = some f := by
  have aux : ∀ (cs : List ℕ) (r : Registry I), r.lookup c = some f → (insertAll r cs f).lookup c = some f := by
    intro cs
    induction cs with
    | nil => intro r h; exact h
    | cons d cs ih =>
      intro r h
      refine ih _ ?_
      rw [List.lookup_cons]
      by_cases hd : c == d <;> simp [hd, h]
  intro cs
  induction cs with
  | nil => intro r h; simp at h
  | cons d cs ih =>
    intro r h
    rcases List.mem_cons.mp h with rfl | h
    · exact aux cs _ (by simp)
    · exact ih _ h

theorem lookup_insertAll_other (f : I) (c : ℕ) : ∀ (cs : List ℕ) (r : Registry I), c ∉ cs → (insertAll r cs f).lookup c = r.lookup c := by
  intro cs
  induction cs with
  | nil => intro r _; rfl
  | cons d cs ih =>
    intro r h
    simp only [List.mem_cons, not_or] at h
    refine (ih _ h.2).trans ?_
    rw [List.lookup_cons, show (c == d) = false by simp [h.1]]

/-- **C95**, what a union means: after `@g.register` above a function annotated `A | B | …`, also with the patch, an argument is
handled by that function if, going up from its class to its base classes, one of the union is reached before any class with an
implementation of its own; the other arguments are handled as before. -/
theorem C95_union_members (r : Registry I) (cs : List ℕ) (f : I) :
    ∃ t, patched r (.annotated (.union cs) f) = .ok t ∧
      (∀ (below above : List ℕ) (c : ℕ), c ∈ cs → (∀ d ∈ below, d ∉ cs ∧ r.lookup d = none) →
        dispatch t (below ++ c :: above) = some f) ∧
      ∀ mro : List ℕ, (∀ d ∈ mro, d ∉ cs) → dispatch t mro = dispatch r mro := by
  refine ⟨_, rfl, ?_, ?_⟩
  · intro below above c hc hb
    induction below with
    | nil => simp only [List.nil_append, dispatch, lookup_insertAll f c cs r hc]
    | cons d below ih =>
      obtain ⟨h1, h2⟩ := hb d (by simp)
      simp only [List.cons_append, dispatch, lookup_insertAll_other f d cs r h1, h2]
      exact ih fun e he => hb e (by simp [he])
  · intro mro hm
    induction mro with
    | nil => rfl
    | cons d mro ih =>
      simp only [dispatch, lookup_insertAll_other f d cs r (hm d (by simp))]
      rw [ih fun e he => hm e (by simp [he])]

/-- class 7 derives from 5, one of the union, which derives from 0 (`object`) -/
example : let r : Registry String := [(0, "default")]
    ((patched r (.annotated (.union [5, 6]) "f")).toOption.map fun t => (dispatch t [7, 5, 0], dispatch t [8, 0])) =
      some (some "f", some "default") := by
  decide +kernel

/-- C95 is false for two other ways of registering that Python 3.11 accepts: with the patch, `g.register(A | B, f)` and a
function annotated `typing.Union[A, B]` are silently not registered, whatever the classes and the table. -/
theorem C95_lost_registrations (r : Registry I) (cs : List ℕ) (f : I) :
    (patched r (.direct (.union cs) f) = .ok r ∧ native r (.direct (.union cs) f) = .ok (insertAll r cs f)) ∧
    (patched r (.annotated (.typingUnion cs) f) = .ok r ∧
      native r (.annotated (.typingUnion cs) f) = .ok (insertAll r cs f)) := ⟨⟨rfl, rfl⟩, rfl, rfl⟩

/-- with a default implementation for class 0 (`object`), an argument of class 5 reaches the default instead of `f` -/
example : let r : Registry String := [(0, "default")]
    ((patched r (.direct (.union [5, 6]) "f")).toOption.bind fun t => dispatch t [5, 0]) = some "default" ∧
    ((native r (.direct (.union [5, 6]) "f")).toOption.bind fun t => dispatch t [5, 0]) = some "f" := by
  decide +kernel

/-- the table of `get_produced_kif`, some of it: classes and unions by annotation, one direct registration -/
example : ∀ g ∈ ([.annotated (.cls 1) "quantizer", .annotated (.union [2, 3, 4]) "activation", .direct (.cls 9) "lut"] :
    List (Reg String)), g.Used := by
  intro g hg
  simp only [List.mem_cons, List.not_mem_nil, or_false] at hg
  rcases hg with rfl | rfl | rfl <;> trivial

/-! ### C96 -/

/-- no `with shutup` -/
def Stmt.Plain : Stmt → Prop
  | .silenced _ => False
  | _ => True

/-- no `with shutup` inside another -/
def Stmt.Flat : Stmt → Prop
  | .silenced body => ∀ s ∈ body, s.Plain
  | _ => True

/-- what a reader sees: the output of the statements outside `with shutup`, up to the first exception. `o`, `e`: standard output
and standard error. -/
def visible (o e : ℕ) : List Stmt → List (ℕ × String)
  | [] => []
  | .print s :: ss => (o, s) :: visible o e ss
  | .complain s :: ss => (e, s) :: visible o e ss
  | .raise :: _ => []
  | .silenced body :: ss => if body.any (fun | .raise => true | _ => false) then [] else visible o e ss

/-- whether an exception leaves the code -/
def raises : List Stmt → Bool
  | [] => false
  | .raise :: _ => true
  | .silenced body :: ss => body.any (fun | .raise => true | _ => false) || raises ss
  | _ :: ss => raises ss

theorem exec_quiet : ∀ (body : List Stmt), (∀ s ∈ body, s.Plain) → ∀ st : PyState, st.out = .silencer → st.err = .silencer →
    execAll st body = (st, body.any fun | .raise => true | _ => false)
  | [], _, st, _, _ => by simp [execAll]
  | s :: ss, h, st, ho, he => by
    have ih := exec_quiet ss (fun s hs => h s (by simp [hs])) st ho he
    have hs := h s (by simp)
    cases s with
    | print x => simp only [execAll, Stmt.exec, PyState.write, ho]; simpa using ih
    | complain x => simp only [execAll, Stmt.exec, PyState.write, he]; simpa using ih
    | raise => simp [execAll, Stmt.exec]
    | silenced b => exact absurd hs (by simp [Stmt.Plain])

/-- **C96** (partial). Code that uses `with shutup` any number of times, but not inside itself: whether it raises or not, in a
silenced part or outside, standard output and standard error are afterwards what they were before; exactly the output of the
other parts has appeared, in order; and exceptions get through. Missing: nested use (`C96_nested`). -/
theorem C96_restored_partial (o e : ℕ) : ∀ (p : List Stmt) (st : PyState), (∀ s ∈ p, s.Flat) → st.out = .real o →
    st.err = .real e →
    (execAll st p).1.out = .real o ∧ (execAll st p).1.err = .real e ∧
      (execAll st p).1.log = st.log ++ visible o e p ∧ (execAll st p).2 = raises p
  | [], st, _, ho, he => by simp [execAll, ho, he, visible, raises]
  | s :: ss, st, h, ho, he => by
    have hs := h s (by simp)
    have ih := fun st' h1 h2 => C96_restored_partial o e ss st' (fun s hs => h s (by simp [hs])) h1 h2
    cases s with
    | print x =>
      have := ih (st.write st.out x) (by simp [PyState.write, ho]) (by simp [PyState.write, ho, he])
      simp only [execAll, Stmt.exec, Bool.false_eq_true, if_false]
      refine ⟨this.1, this.2.1, ?_, this.2.2.2⟩
      rw [this.2.2.1]
      simp [PyState.write, ho, visible]
    | complain x =>
      have := ih (st.write st.err x) (by simp [PyState.write, ho, he]) (by simp [PyState.write, he])
      simp only [execAll, Stmt.exec, Bool.false_eq_true, if_false]
      refine ⟨this.1, this.2.1, ?_, this.2.2.2⟩
      rw [this.2.2.1]
      simp [PyState.write, he, visible]
    | raise => simp [execAll, Stmt.exec, ho, he, visible, raises]
    | silenced body =>
      have hq := exec_quiet body hs st.enter rfl rfl
      have hexit : st.enter.exit.out = .real o ∧ st.enter.exit.err = .real e ∧ st.enter.exit.log = st.log := by
        simp [PyState.enter, PyState.exit, ho, he]
      simp only [execAll, Stmt.exec, hq, visible, raises]
      cases hb : body.any (fun | .raise => true | _ => false)
      · have := ih st.enter.exit hexit.1 hexit.2.1
        simp only [Bool.false_eq_true, if_false, Bool.false_or]
        refine ⟨this.1, this.2.1, ?_, this.2.2.2⟩
        rw [this.2.2.1, hexit.2.2]
      · simp [hexit]

/-- C96 is false for nested use: the silencer remembers one pair of streams, and after the outer block Python goes on writing
to the silencer, whatever the blocks contain. -/
theorem C96_nested (st : PyState) (a b : List Stmt)
    (ha : ∀ s ∈ a, s.Plain) (hb : ∀ s ∈ b, s.Plain) (hr : raises a = false) :
    (execAll st [.silenced (a ++ [.silenced b])]).1.out = .silencer ∧
    (execAll st [.silenced (a ++ [.silenced b])]).1.err = .silencer := by
  have happ : ∀ (a : List Stmt), (∀ s ∈ a, s.Plain) → raises a = false → ∀ st' : PyState, st'.out = .silencer →
      st'.err = .silencer → execAll st' (a ++ [.silenced b]) = execAll st' [.silenced b] := by
    intro a
    induction a with
    | nil => intros; rfl
    | cons s a ih =>
      intro h hr st' h1 h2
      have ih' := fun hr => ih (fun s hs => h s (by simp [hs])) hr st' h1 h2
      have hs := h s (by simp)
      cases s with
      | print x =>
        rw [List.cons_append, execAll]
        simp only [Stmt.exec, PyState.write, h1, Bool.false_eq_true, if_false]
        exact ih' hr
      | complain x =>
        rw [List.cons_append, execAll]
        simp only [Stmt.exec, PyState.write, h2, Bool.false_eq_true, if_false]
        exact ih' hr
      | raise => simp [raises] at hr
      | silenced b => exact absurd hs (by simp [Stmt.Plain])
  have hin := happ a ha hr st.enter rfl rfl
  have hq := exec_quiet b hb st.enter.enter rfl rfl
  have hb' : execAll st.enter [.silenced b] = (st.enter.enter.exit, b.any fun | .raise => true | _ => false) := by
    simp only [execAll, Stmt.exec, hq]
    cases (b.any fun | .raise => true | _ => false) <;> rfl
  have : execAll st [.silenced (a ++ [.silenced b])] =
      (st.enter.enter.exit.exit, b.any fun | .raise => true | _ => false) := by
    rw [execAll, Stmt.exec, hin, hb']
    cases (b.any fun | .raise => true | _ => false) <;> rfl
  rw [this]
  exact ⟨rfl, rfl⟩

/-- importing the package in a program that prints before and after, with warnings during the import -/
example : let st : PyState := ⟨.real 1, .real 2, none, none, []⟩
    (execAll st [.print "a", .silenced [.complain "tensorflow", .print "b"], .print "c"]).1.log = [(1, "a"), (1, "c")] ∧
    (execAll st [.silenced [.silenced []], .print "lost"]).1.log = [] := by
  decide +kernel

end HGQ.Import
