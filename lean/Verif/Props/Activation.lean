import Verif.Model.Activation
import Verif.Props.Layer

/-!
C82: the activation a layer was given is the one its proxy computes.
-/

namespace HGQ

/-- **C82**, what is accepted: nothing, the strings `relu` and `linear`, the two Keras functions, and every callable whose name is
`relu` or `linear` up to case. -/
theorem C82_accepted (a : ActArg) : (∃ r, a.init = .ok r) ↔
    match a with
    | .none => True
    | .str s => s = "relu" ∨ s = "linear"
    | .kerasRelu => True
    | .kerasLinear => True
    | .callable name _ => name.toLower = "relu" ∨ name.toLower = "linear" := by
  cases a with
  | none => simp [ActArg.init, ActArg.check, ActArg.get]
  | kerasRelu => simp [ActArg.init, ActArg.check, ActArg.get]
  | kerasLinear => simp [ActArg.init, ActArg.check, ActArg.get]
  | callable n f =>
    by_cases h : n.toLower = "relu" ∨ n.toLower = "linear" <;> simp [ActArg.init, ActArg.check, ActArg.get, h]
  | str s =>
    have h1 : "relu".toLower = "relu" := by decide +kernel
    have h2 : "linear".toLower = "linear" := by decide +kernel
    by_cases hr : s = "relu"
    · subst hr; simp [ActArg.init, ActArg.check, ActArg.get, h1]
    · by_cases hl : s = "linear"
      · subst hl; simp [ActArg.init, ActArg.check, ActArg.get, h2]
      · simp only [ActArg.init, ActArg.get, hr, hl, if_false, or_self, iff_false]
        split_ifs <;> simp

/-- a value of `activation` other than a foreign callable -/
def ActArg.Plain : ActArg → Prop
  | .callable _ _ => False
  | _ => True

/-- **C82** for `None`, strings and the Keras functions: on every in-range input the layer applies relu if asked for relu and
nothing otherwise, and its proxy returns the same number. Missing from the full property: other callables, see below. -/
theorem C82_plain_partial (a : ActArg) (ha : a.Plain) (r : Act) (hr : a.init = .ok r) (L : LinLayer) (s : QState)
    (h : (L.withAct r).WF s) (aggressive : Bool) (x : List ℚ) (p : ℕ) (hp : p < prodL L.outShape) (lo hi : ℚ)
    (ht : Traced s (L.elem p) lo hi) (hall : ∀ e < prodL L.qShape, -32 ≤ s.fbw e)
    (h1 : lo ≤ (L.withAct r).quant s x p) (h2 : (L.withAct r).quant s x p ≤ hi) :
    L.proxyWith r s (proxySat aggressive) x p = L.outWith r s x p ∧
      L.outWith r s x p = (match a with
        | .str "relu" | .kerasRelu => max ((L.withAct r).quant s x p) 0
        | _ => (L.withAct r).quant s x p) := by
  have key : r = .relu ∨ r = .linear := by
    cases a with
    | callable n f => exact ha.elim
    | none => right; simpa [ActArg.init, ActArg.check, ActArg.get] using hr.symm
    | kerasRelu => left; simpa [ActArg.init, ActArg.check, ActArg.get] using hr.symm
    | kerasLinear => right; simpa [ActArg.init, ActArg.check, ActArg.get] using hr.symm
    | str t =>
      simp only [ActArg.init, ActArg.get] at hr
      split_ifs at hr <;> simp_all
  have hval : L.outWith r s x p = (match a with
        | .str "relu" | .kerasRelu => max ((L.withAct r).quant s x p) 0
        | _ => (L.withAct r).quant s x p) := by
    cases a with
    | callable n f => exact ha.elim
    | none =>
      have : r = .linear := by simpa [ActArg.init, ActArg.check, ActArg.get] using hr.symm
      subst this; rfl
    | kerasRelu =>
      have : r = .relu := by simpa [ActArg.init, ActArg.check, ActArg.get] using hr.symm
      subst this; rfl
    | kerasLinear =>
      have : r = .linear := by simpa [ActArg.init, ActArg.check, ActArg.get] using hr.symm
      subst this; rfl
    | str t =>
      by_cases h0 : (ActArg.str t).check = true
      · have hg : (ActArg.str t).get = .ok r := by rw [← hr, ActArg.init, if_pos h0]
        simp only [ActArg.get] at hg
        split_ifs at hg with h3 h4
        · subst h3
          obtain rfl : Act.relu = r := by simpa using hg
          rfl
        · subst h4
          obtain rfl : Act.linear = r := by simpa using hg
          rfl
      · rw [ActArg.init, if_neg h0] at hr
        cases hr
  refine ⟨?_, hval⟩
  rcases key with rfl | rfl
  · exact C25_relu_eq_proxy (L.withAct .relu) s h rfl aggressive x p hp lo hi ht hall h1 h2
  · exact C24_linear_eq_proxy (L.withAct .linear) s h rfl aggressive x p hp lo hi ht h1 h2

/-- **C82** for other accepted callables: the proxy leaves the activation out, so on an in-range input it agrees with the layer iff
the activation does nothing there. -/
theorem C82_callable_iff (name : String) (f : ℚ → ℚ) (r : Act) (hr : (ActArg.callable name f).init = .ok r) (L : LinLayer)
    (s : QState) (h : (L.withAct r).WF s) (aggressive : Bool) (x : List ℚ) (p : ℕ) (hp : p < prodL L.outShape) (lo hi : ℚ)
    (ht : Traced s (L.elem p) lo hi) (h1 : lo ≤ (L.withAct r).quant s x p) (h2 : (L.withAct r).quant s x p ≤ hi) :
    L.proxyWith r s (proxySat aggressive) x p = L.outWith r s x p ↔
      f ((L.withAct r).quant s x p) = (L.withAct r).quant s x p := by
  have : r = .other f := by
    unfold ActArg.init ActArg.get at hr
    split_ifs at hr
    simpa using hr.symm
  subst this
  have e := C24_linear_eq_proxy (L.withAct (.other f)) s h rfl aggressive x p hp lo hi ht h1 h2
  have e2 : (L.withAct (.other f)).post ((L.withAct (.other f)).quant s x p) = (L.withAct (.other f)).quant s x p := rfl
  rw [e2] at e
  unfold LinLayer.proxyWith
  rw [e]
  exact eq_comm

/-- Negation of **C82**: `activation=tf.nn.relu` (a callable named `relu` computing relu) is accepted; on an input within the
recorded range the layer returns 0, the proxy -3/4. -/
theorem C82_foreign_relu :
    ∃ r, (ActArg.callable "relu" relu).init = .ok r ∧ ((exDense 3 [2] false).withAct r).WF exState ∧
      Traced exState ((exDense 3 [2] false).elem 1) (-2) (7 / 4) ∧
      ∃ x, -2 ≤ ((exDense 3 [2] false).withAct r).quant exState x 1 ∧
        ((exDense 3 [2] false).withAct r).quant exState x 1 ≤ 7 / 4 ∧
        (exDense 3 [2] false).outWith r exState x 1 = 0 ∧
        (exDense 3 [2] false).proxyWith r exState (proxySat true) x 1 = -3 / 4 := by
  refine ⟨.other relu, ?_, exDense_wf 3 false, exState_traced1, [1, 1 / 3], ?_, ?_, ?_, ?_⟩
  · have : "relu".toLower = "relu" := by decide +kernel
    simp [ActArg.init, ActArg.check, ActArg.get, this]
  all_goals decide +kernel

-- the same layer with the string 'relu': both return 0
example : (exDense 3 [2] false).outWith .relu exState [1, 1 / 3] 1 = 0 ∧
    (exDense 3 [2] false).proxyWith .relu exState (proxySat true) [1, 1 / 3] 1 = 0 := by
  have h := C82_plain_partial (.str "relu") trivial .relu (by
      have : "relu".toLower = "relu" := by decide +kernel
      simp [ActArg.init, ActArg.check, ActArg.get, this]) (exDense 3 [2] false) exState (exDense_wf 3 true) true [1, 1 / 3] 1
    (by decide) _ _ exState_traced1 (by intro e _; unfold exState; dsimp only; split_ifs <;> norm_num) (by decide +kernel)
    (by decide +kernel)
  have h2 : (exDense 3 [2] false).outWith .relu exState [1, 1 / 3] 1 = 0 := by decide +kernel
  exact ⟨h2, h.1.trans h2⟩

-- a callable named 'linear' that does nothing is deployed correctly
example : (exDense 3 [2] false).proxyWith (.other id) exState (proxySat true) [1, 1 / 3] 1 =
    (exDense 3 [2] false).outWith (.other id) exState [1, 1 / 3] 1 :=
  (C82_callable_iff "linear" id (.other id) (by
      have : "linear".toLower = "linear" := by decide +kernel
      simp [ActArg.init, ActArg.check, ActArg.get, this]) (exDense 3 [2] false) exState (exDense_wf 3 false) true [1, 1 / 3] 1
    (by decide) _ _ exState_traced1 (by decide +kernel) (by decide +kernel)).2 rfl

end HGQ
