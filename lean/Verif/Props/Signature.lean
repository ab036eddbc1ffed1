import Verif.Model.Signature
import Verif.Props.Trace

/-!
C97: `Signature` marks its input as being of a given type.
-/

namespace HGQ.Sig
open Spec

/-! ### specification -/

/-- the values of a tensor have the declared types: signed or not, `b` bits of which `i` (with the sign) before the point -/
def InType : List Bool → List ℕ → List ℤ → List ℚ → Prop
  | s :: ss, b :: bs, i :: is, v :: vs => IsApFixed s b i v ∧ InType ss bs is vs
  | [], [], [], [] => True
  | _, _, _, _ => False

/-- the layer declaring these types -/
def typed (ss : List Bool) (bs : List ℕ) (is : List ℤ) : Layer :=
  ⟨⟨.int8, ss.map Bool.toInt⟩, ⟨.int8, bs.map (Nat.cast : ℕ → ℤ)⟩, ⟨.int8, is⟩⟩

/-! ### one element -/

theorem apply_init (s : Bool) (w : ℕ) (i : ℤ) (R : Rnd) (S : Sat) (x : ℚ) :
    (KBI.init s.toInt w i).apply R S x = gfixedQuantizer x s.toInt w i R S := by
  unfold KBI.init KBI.apply
  split_ifs with h
  · rw [h, gfixed_zero_bits, gfixed_zero_bits]
  · rfl

theorem apply_eq_iff (s : Bool) (w : ℕ) (i : ℤ) (aggressive : Bool) (x : ℚ) :
    (KBI.init s.toInt w i).apply .TRN (proxySat aggressive) x = x ↔ IsApFixed s w i x := by
  rw [apply_init]
  constructor
  · intro h
    rw [← h]
    exact C01_output_in_type x s w i _ _
  · intro h
    refine C02_representable_unchanged x s w i _ _ h ?_
    intro hS
    cases aggressive <;> simp [proxySat] at hS

theorem applyProxy_eq_iff (aggressive : Bool) : ∀ (ss : List Bool) (bs : List ℕ) (is : List ℤ) (x : List ℚ),
    bs.length = ss.length → is.length = ss.length → x.length = ss.length →
    (applyProxy (List.zipWith (fun k bi => KBI.init k bi.1 bi.2) (ss.map Bool.toInt)
        ((bs.map (Nat.cast : ℕ → ℤ)).zip is)) (proxySat aggressive) x = x ↔ InType ss bs is x)
  | [], [], [], [], _, _, _ => by simp [applyProxy, InType]
  | s :: ss, b :: bs, i :: is, v :: vs, h1, h2, h3 => by
    have ih := applyProxy_eq_iff aggressive ss bs is vs (by simpa using h1) (by simpa using h2) (by simpa using h3)
    have he := apply_eq_iff s b i aggressive v
    unfold applyProxy at ih ⊢
    simp only [List.map_cons, List.zip_cons_cons, List.zipWith_cons_cons, List.cons.injEq, InType]
    rw [he, ih]

/-! ### C97 -/

/-- **C97** (partial), widths given as int8 (Python numbers are stored so): in both overflow modes the proxy of a `Signature`
hands on a tensor as the layer does exactly when each value is of the declared type. Missing: arrays of another type
(`C97_array_types`). -/
theorem C97_transparent_iff_partial (ss : List Bool) (bs : List ℕ) (is : List ℤ) (aggressive : Bool) (x : List ℚ)
    (hb : bs.length = ss.length) (hi : is.length = ss.length) (hx : x.length = ss.length) :
    ∃ qs, (typed ss bs is).proxy = .ok qs ∧
      (applyProxy qs (proxySat aggressive) x = (typed ss bs is).call x ↔ InType ss bs is x) :=
  ⟨_, rfl, applyProxy_eq_iff aggressive ss bs is x hb hi hx⟩

/-- **C97**, saving: a `Signature` made from Python numbers is the same after saving and loading. -/
theorem C97_save_load (n : ℕ) (k b i : List ℤ) (s : Layer)
    (h : Layer.make n (.py false k) (.py false b) (.py false i) = .ok s) : s.reload n = .ok s := by
  have hinit : ∀ {vs : List ℤ} {t : WTensor}, (Arg.py false vs).init = .ok t →
      t = ⟨.int8, vs⟩ ∧ ∀ v ∈ vs, -128 ≤ v ∧ v ≤ 127 := by
    intro vs t ht
    simp only [Arg.init, Bool.false_eq_true, if_false] at ht
    split_ifs at ht with ha
    cases ht
    exact ⟨rfl, by simpa using ha⟩
  have hbc : ∀ {vs : List ℤ} {t : WTensor}, (∀ v ∈ vs, -128 ≤ v ∧ v ≤ 127) → WTensor.broadcast n ⟨.int8, vs⟩ = .ok t →
      t.tolist.init = .ok t ∧ t.broadcast n = .ok t := by
    intro vs t hv ht
    have h8 : t.dtype = .int8 ∧ (∀ v ∈ t.vals, -128 ≤ v ∧ v ≤ 127) ∧ t.vals.length = n := by
      unfold WTensor.broadcast at ht
      simp only at ht
      split at ht
      · rename_i v
        cases ht
        refine ⟨rfl, ?_, by simp⟩
        intro u hu
        rw [List.eq_of_mem_replicate hu]
        exact hv v (by simp)
      · split_ifs at ht with hl
        cases ht
        exact ⟨rfl, hv, hl⟩
    obtain ⟨h1, h2, h3⟩ := h8
    obtain ⟨dt, vals⟩ := t
    cases h1
    refine ⟨?_, ?_⟩
    · simp only [WTensor.tolist, Arg.init]
      rw [if_neg (by simp), if_pos (by simpa using h2)]
    · unfold WTensor.broadcast
      simp only
      split
      · rename_i v
        simp only [List.length_singleton] at h3
        subst h3
        rfl
      · rw [if_pos h3]
  unfold Layer.make at h
  simp only [bind, Except.bind, pure, Except.pure] at h
  cases hk : (Arg.py false k).init with
  | error e => rw [hk] at h; cases h
  | ok tk =>
  rw [hk] at h; simp only at h
  cases hb : (Arg.py false b).init with
  | error e => rw [hb] at h; cases h
  | ok tb =>
  rw [hb] at h; simp only at h
  cases hi : (Arg.py false i).init with
  | error e => rw [hi] at h; cases h
  | ok ti =>
  rw [hi] at h; simp only at h
  obtain ⟨rfl, hkv⟩ := hinit hk
  obtain ⟨rfl, hbv⟩ := hinit hb
  obtain ⟨rfl, hiv⟩ := hinit hi
  cases hk' : WTensor.broadcast n ⟨.int8, k⟩ with
  | error e => rw [hk'] at h; cases h
  | ok tk =>
  rw [hk'] at h; simp only at h
  cases hb' : WTensor.broadcast n ⟨.int8, b⟩ with
  | error e => rw [hb'] at h; cases h
  | ok tb =>
  rw [hb'] at h; simp only at h
  cases hi' : WTensor.broadcast n ⟨.int8, i⟩ with
  | error e => rw [hi'] at h; cases h
  | ok ti =>
  rw [hi'] at h
  cases h
  obtain ⟨k1, k2⟩ := hbc hkv hk'
  obtain ⟨b1, b2⟩ := hbc hbv hb'
  obtain ⟨i1, i2⟩ := hbc hiv hi'
  unfold Layer.reload Layer.make
  simp only [bind, Except.bind, pure, Except.pure, k1, b1, i1, k2, b2, i2]

/-- C97 is false for widths given as arrays: an array of another integer type makes a layer that cannot be deployed, but
is deployable after saving and loading; floating-point arrays make one that can be neither deployed nor loaded. -/
theorem C97_array_types :
    (∃ s s', Layer.make 2 (.arr .otherInt [1]) (.arr .otherInt [6, 4]) (.arr .otherInt [3, 3]) = .ok s ∧
      s.proxy.toBool = false ∧ s.reload 2 = .ok s' ∧ s'.proxy.toBool = true) ∧
    (∃ s, Layer.make 2 (.arr .float [1]) (.arr .float [6, 4]) (.arr .float [3, 3]) = .ok s ∧
      s.proxy.toBool = false ∧ (s.reload 2).toBool = false) := by
  refine ⟨⟨⟨⟨.otherInt, [1, 1]⟩, ⟨.otherInt, [6, 4]⟩, ⟨.otherInt, [3, 3]⟩⟩,
    ⟨⟨.int8, [1, 1]⟩, ⟨.int8, [6, 4]⟩, ⟨.int8, [3, 3]⟩⟩, ?_⟩, ⟨⟨⟨.float, [1, 1]⟩, ⟨.float, [6, 4]⟩, ⟨.float, [3, 3]⟩⟩, ?_⟩⟩
  · exact ⟨rfl, rfl, rfl, rfl⟩
  · exact ⟨rfl, rfl, rfl⟩

/-- Outside the type the deployed model sees other values: `Signature(0, 4, 4)` hands 1/2 and 17 on, its proxy 0 and 1
(wrapping), or 0 and 15 (saturating). -/
theorem C97_outside_changes :
    (typed [false, false] [4, 4] [4, 4]).call [1 / 2, 17] = [1 / 2, 17] ∧
    (match (typed [false, false] [4, 4] [4, 4]).proxy with
      | .ok qs => applyProxy qs .WRAP [1 / 2, 17] = [0, 1] ∧ applyProxy qs .SAT [1 / 2, 17] = [0, 15]
      | .error _ => False) := by
  refine ⟨rfl, ?_⟩
  constructor <;> decide +kernel

/-- **C97** (partial), whole models: a model that starts with `Signature` layers, one for each input, calibrated on a dataset
whose inputs are of the declared types, is reproduced on that dataset by its proxy, which starts with the quantizers made from
the signatures. Hypotheses as in C26. -/
theorem C97_model_partial (net : Net) (ts : List LTree) (outs : List ℕ) (bopsOf : ℕ → List LState → Except String ℚ)
    (o : TraceOpts) (ss ss' : List LState) (data : List (List (List ℚ))) (r : TraceRes) (aggressive : Bool)
    (sigs : List (List Bool × List ℕ × List ℤ))
    (hshape : ∀ s ∈ sigs, s.2.1.length = s.1.length ∧ s.2.2.length = s.1.length)
    (hdata : ∀ x ∈ data, List.Forall₂ (fun s v => v.length = s.1.length ∧ InType s.1 s.2.1 s.2.2 v) sigs x)
    (hw : net.All Node.WF (ss.map LState.q)) (hrst : o.rst = true) (hcov : 1 ≤ o.cover)
    (hlist : ∀ (i : ℕ) nd ins, net[i]? = some (nd, ins) → nd.site.isSome → LTree.layer i ∈ ts) (hne : data ≠ [])
    (h : net.traceMinmax ts outs bopsOf o ss data = .ok (ss', r)) (hb : net.All Bounded (ss'.map LState.q)) :
    ∃ pm qss, net.toProxy (proxySat aggressive) (ss'.map LState.q) = .ok pm ∧
      sigs.mapM (fun s => (typed s.1 s.2.1 s.2.2).proxy) = .ok qss ∧
      ∀ x ∈ data, net.predict (ss'.map LState.q) x =
        .ok (pm.eval (List.zipWith (fun qs v => applyProxy qs (proxySat aggressive) v) qss x)) := by
  obtain ⟨pm, hpm, hev⟩ := C26_trace_minmax net ts outs bopsOf o ss ss' data r aggressive hw hrst hcov hlist hne h hb
  let mk := fun s : List Bool × List ℕ × List ℤ => List.zipWith (fun k bi => KBI.init k bi.1 bi.2) (s.1.map Bool.toInt)
        ((s.2.1.map (Nat.cast : ℕ → ℤ)).zip s.2.2)
  have hqs : ∀ sigs : List (List Bool × List ℕ × List ℤ),
      sigs.mapM (fun s => (typed s.1 s.2.1 s.2.2).proxy) = .ok (sigs.map mk) := by
    intro sigs
    induction sigs with
    | nil => rfl
    | cons s sigs ih =>
      rw [List.mapM_cons, ih]
      rfl
  refine ⟨pm, sigs.map mk, hpm, hqs sigs, fun x hx => ?_⟩
  have hd := hdata x hx
  have hid : List.zipWith (fun qs v => applyProxy qs (proxySat aggressive) v) (sigs.map mk) x = x := by
    clear hev hdata hqs hx
    induction hd with
    | nil => rfl
    | @cons s v sigs vs h1 h2 ih =>
      simp only [List.map_cons, List.zipWith_cons_cons]
      rw [ih (fun s hs => hshape s (by simp [hs]))]
      congr 1
      obtain ⟨a, b⟩ := hshape s (by simp)
      exact (applyProxy_eq_iff aggressive s.1 s.2.1 s.2.2 v a b h1.1).mpr h1.2
  rw [hid]
  exact hev x hx

example : InType [true, false] [6, 4] [3, 4] [-(3 / 8 : ℚ), 5] :=
  ⟨⟨-3#6, by decide +kernel⟩, ⟨5#4, by decide +kernel⟩, trivial⟩

end HGQ.Sig
