import Verif.Model.PrecGraph
import Verif.Props.Narrow4
import Verif.Props.NarrowExact
import Verif.Lemmas.Shape

/-!
Definitions and lemmas for C89: types of a whole proxy model, and when the type derivation is sound for a layer.
-/

namespace HGQ

open Spec

/-! ### passes over a list with the results so far -/

/-- one result per entry, each computed from the results before it -/
def scan {α β : Type} (f : List β → α → β) (g : List α) : List β := g.foldl (fun acc e => acc ++ [f acc e]) []

theorem scan_snoc {α β : Type} (f : List β → α → β) (g : List α) (e : α) : scan f (g ++ [e]) = scan f g ++ [f (scan f g) e] := by
  unfold scan; rw [List.foldl_append]; rfl

theorem scan_length {α β : Type} (f : List β → α → β) (g : List α) : (scan f g).length = g.length := by
  induction g using List.reverseRecOn with
  | nil => rfl
  | append_singleton g e ih => rw [scan_snoc]; simp [ih]

theorem scan_get {α β : Type} (f : List β → α → β) (g : List α) (n : ℕ) :
    (scan f g)[n]? = g[n]?.map fun e => f ((scan f g).take n) e := by
  induction g using List.reverseRecOn with
  | nil => simp [scan]
  | append_singleton g e ih =>
    rw [scan_snoc]
    have hl := scan_length f g
    rcases lt_trichotomy n g.length with h | h | h
    · rw [List.getElem?_append_left (by omega), List.getElem?_append_left h, ih, List.take_append_of_le_length (by omega)]
    · subst h
      rw [List.getElem?_append_right (by omega), List.getElem?_append_right le_rfl]
      simp [hl, List.take_append_of_le_length hl.ge, List.take_of_length_le hl.le]
    · rw [List.getElem?_eq_none (by simp; omega), List.getElem?_eq_none (by simp; omega)]; rfl

theorem getD_take {β : Type} (l : List β) (d : β) {m n : ℕ} (h : m < n) : (l.take n).getD m d = l.getD m d := by
  simp [List.getD, List.getElem?_take, h]

/-! ### graphs -/

/-- inbound layers come first -/
def PGraph.WF (g : PGraph) : Prop := ∀ n, ∀ m ∈ g.ins n, m < n

/-- the types derived for the layers when every layer is asked once, inbound layers first -/
def PGraph.types (g : PGraph) : List KIF := scan (fun ts e => e.1.kif (e.2.map (ts.getD · infKif))) g

/-- the derived type of the layer at position `n` -/
def PGraph.typeOf (g : PGraph) (n : ℕ) : KIF := g.types.getD n infKif

/-- the derived types of the inbound layers -/
def PGraph.inTypes (g : PGraph) (n : ℕ) : List KIF := (g.ins n).map g.typeOf

theorem PGraph.ins_of {g : PGraph} {n : ℕ} {l : PLay} {ins : List ℕ} (h : g[n]? = some (l, ins)) : g.ins n = ins := by
  unfold PGraph.ins; rw [h]; rfl

theorem PGraph.lay_of {g : PGraph} {n : ℕ} {l : PLay} {ins : List ℕ} (h : g[n]? = some (l, ins)) : g.lay n = some l := by
  unfold PGraph.lay; rw [h]; rfl

theorem PGraph.of_lay {g : PGraph} {n : ℕ} {l : PLay} (h : g.lay n = some l) : g[n]? = some (l, g.ins n) := by
  unfold PGraph.lay at h
  rw [Option.map_eq_some_iff] at h
  obtain ⟨⟨l', ins⟩, h1, h2⟩ := h
  simp only at h2; subst h2
  rw [g.ins_of h1, h1]

theorem PGraph.typeOf_eq {g : PGraph} (hwf : g.WF) {n : ℕ} {l : PLay} (h : g.lay n = some l) :
    g.typeOf n = l.kif (g.inTypes n) := by
  have h' := g.of_lay h
  unfold PGraph.typeOf PGraph.types
  rw [List.getD, scan_get, h']
  simp only [Option.map_some, Option.getD_some]
  congr 1
  unfold PGraph.inTypes
  apply List.map_congr_left
  intro m hm
  exact getD_take _ _ (hwf n m hm)

theorem PGraph.typeOf_none {g : PGraph} {n : ℕ} (h : g.lay n = none) : g.typeOf n = infKif := by
  unfold PGraph.lay at h
  rw [Option.map_eq_none_iff] at h
  unfold PGraph.typeOf PGraph.types
  rw [List.getD, scan_get, h]; rfl

/-- the value of the layer at position `n` -/
def PGraph.value (g : PGraph) (xs : ℕ → List ℚ) (n : ℕ) : List ℚ := (g.eval xs).getD n []

theorem PGraph.eval_scan (g : PGraph) (xs : ℕ → List ℚ) :
    g.eval xs = scan (fun env e => match e.1 with
      | .input => xs env.length
      | l => l.eval (e.2.map (env.getD · []))) g := rfl

theorem PGraph.eval_length (g : PGraph) (xs : ℕ → List ℚ) : (g.eval xs).length = g.length := by
  rw [g.eval_scan, scan_length]

theorem PGraph.value_input {g : PGraph} {n : ℕ} (h : g.lay n = some .input) (xs : ℕ → List ℚ) :
    g.value xs n = xs n := by
  have h' := g.of_lay h
  have hn : n < g.length := by
    by_contra hc
    rw [List.getElem?_eq_none (by omega)] at h'; cases h'
  unfold PGraph.value
  rw [g.eval_scan, List.getD, scan_get, h']
  simp only [Option.map_some, Option.getD_some]
  rw [List.length_take, scan_length, min_eq_left hn.le]

theorem PGraph.value_eq {g : PGraph} (hwf : g.WF) {n : ℕ} {l : PLay} (h : g.lay n = some l) (hl : l ≠ .input)
    (xs : ℕ → List ℚ) : g.value xs n = l.eval ((g.ins n).map (g.value xs)) := by
  have h' := g.of_lay h
  unfold PGraph.value
  rw [g.eval_scan, List.getD, scan_get, h']
  simp only [Option.map_some, Option.getD_some]
  congr 1
  apply List.map_congr_left
  intro m hm
  exact getD_take _ _ (hwf n m hm)

theorem PGraph.value_none {g : PGraph} {n : ℕ} (h : g.lay n = none) (xs : ℕ → List ℚ) : g.value xs n = [] := by
  unfold PGraph.lay at h
  rw [Option.map_eq_none_iff] at h
  unfold PGraph.value
  rw [g.eval_scan, List.getD, scan_get, h]; rfl

theorem PGraph.eval_ext {g g' : PGraph} (hl : g'.length = g.length) (xs : ℕ → List ℚ)
    (h : ∀ n, g'.value xs n = g.value xs n) : g'.eval xs = g.eval xs := by
  apply List.ext_getElem
  · rw [g.eval_length, g'.eval_length, hl]
  · intro n h1 h2
    have := h n
    unfold PGraph.value at this
    rwa [getD_lt _ _ h1, getD_lt _ _ h2] at this

/-! ### soundness of the derivation for one layer -/

/-- every entry of a tensor is a value of the type -/
def KIF.HoldsAll (t : KIF) (x : List ℚ) : Prop := ∀ v ∈ x, t.Holds v

/-- the largest magnitude of a value of the type (an upper bound of it when signed) -/
def KIF.mag (t : KIF) : ℚ := if t.k = 0 then max 0 ((2 : ℚ) ^ t.i - (2 : ℚ) ^ (-t.f)) else (2 : ℚ) ^ t.i

/-- the exact conditions of C35 for a homogeneous quantizer -/
def FPQ.Exact (q : FPQ) (inp : KIF) : Prop :=
  heterogeneous q.elems = false ∧ 1 ≤ q.kif.k + q.kif.i + q.kif.f ∧ 1 ≤ inp.k + inp.i + inp.f ∧
  ((q.produced inp).1.k = 0 ∨ 0 ≤ (q.produced inp).1.k + (q.produced inp).1.i + (q.produced inp).1.f) ∧
  (q.sat = .WRAP ∧ WrapKeeps (rndMap q.rnd) inp.k inp.i inp.f q.kif.k q.kif.i q.kif.f ∨
   q.sat = .SAT ∧ SatKeeps (rndMap q.rnd) inp.k inp.i inp.f q.kif.k q.kif.i q.kif.f)

/-- A quantizer of which asking for the type behind an upstream type `inp` does not disturb the function: its elements
are types; and (a) the produced type covers its own, or (b) it wraps and its sign and integer bits are kept, or (c) it is
homogeneous, saturating or wrapping, and the side conditions of `C35_query_keeps_outputs_partial` hold, or (d) it wraps and every
element is pruned or has its sign and integer bits in the produced type, or (e) all elements are pruned, or (f) it is
homogeneous, the exact conditions of `C35_wrap_iff` or `C35_sat_iff` hold, and the produced type, if signed, has no negative
width. -/
def FPQ.Fits (q : FPQ) (inp : KIF) : Prop :=
  (∀ e ∈ q.elems, (e.keepNegative = 0 ∨ e.keepNegative = 1) ∧ 0 ≤ e.bits) ∧
  ((q.kif.k ≤ (q.produced inp).1.k ∧ q.kif.i ≤ (q.produced inp).1.i ∧ q.kif.f ≤ (q.produced inp).1.f) ∨
   (q.sat = .WRAP ∧ (q.produced inp).1.k = q.kif.k ∧ (q.produced inp).1.i = q.kif.i ∧ 0 ≤ q.kif.k + q.kif.i + inp.f) ∨
   (heterogeneous q.elems = false ∧ (q.sat = .SAT ∨ q.sat = .WRAP) ∧
    1 ≤ q.kif.k + q.kif.i + q.kif.f ∧
    1 ≤ (q.produced inp).1.k + (q.produced inp).1.i + (q.produced inp).1.f ∧
    (q.sat = .SAT → inp.f < q.kif.f → inp.i ≤ q.kif.i) ∧
    (q.kif.f < inp.f → 0 ≤ inp.i + q.kif.f) ∧
    (inp.k = 0 → q.kif.k = 1 → inp.i < q.kif.i ∨ inp.i = q.kif.i ∧ inp.f ≤ q.kif.f ∨
      q.sat = .SAT ∧ q.kif.f ≤ inp.f ∧ q.kif.i < inp.i) ∧
    (inp.k = 1 → q.kif.k = 0 → q.sat = .SAT ∨ q.kif.i ≤ inp.i)) ∨
   q.ElemsFit inp ∨ q.AllPruned ∨ q.Exact inp)

/-- When the derived type of a layer behind inbound layers of types `ts` holds all its outputs, and asking for it does not
disturb the layer's function. -/
def PLay.Fits (l : PLay) (ts : List KIF) : Prop :=
  let t := ts.headD infKif
  match l with
  | .input | .move _ _ _ | .maxPool _ _ | .concat _ _ | .add _ => True
  | .quant q o s => Compat o s ∧ q.elems.length = prodL s ∧ q.Fits t
  -- the size of every window is a power of two and at most the pool size
  | .avgPool size n win => ∀ p < n, ∃ m : ℕ, (win p).length = 2 ^ m ∧ 2 ^ m ≤ size
  -- two inputs, not both unsigned
  | .sub _ => ∃ a b, ts = [a, b] ∧ (a.k = 1 ∨ b.k = 1)
  -- vectors of length one, not both signed
  | .dot n terms => ∃ a b, ts = [a, b] ∧ (a.k = 0 ∨ b.k = 0) ∧ ∀ p < n, (terms p).length = 1
  -- the bias is on the product grid, and the largest possible magnitude stays below the derived range
  | .linear kernel bias div n taps chan =>
      (∀ w ∈ kernel, ∃ m : ℤ, w = m * (2 : ℚ) ^ (-32 : ℤ)) ∧
      (∀ b ∈ bias, ∃ m : ℤ, b = m * (2 : ℚ) ^ (-(linearKif t kernel bias div).f)) ∧
      ∀ p < n, (∀ tap ∈ taps p, tap.2 < kernel.length) ∧
        t.mag * ((taps p).map fun tap => |at0 kernel tap.2|).sum + |at0 bias (chan p)| <
          (2 : ℚ) ^ (linearKif t kernel bias div).i
  -- at most 20 bits in, values on the grid the container derivation can see
  | .act _ _ phi => ts ≠ [] ∧ (kifMax ts).k + (kifMax ts).i + (kifMax ts).f ≤ 20 ∧
      ∀ x, (kifMax ts).Holds x ∨ x = 0 ∨ x = 1 → ∃ m : ℤ, phi x = m * (2 : ℚ) ^ (-32 : ℤ)
  -- a probability with finitely many (65535) binary digits
  | .softmax _ g => ∀ x, softmaxKif.HoldsAll (g x)
  | .lut L => (L.kifOut.k = 0 ∨ L.kifOut.k = 1) ∧ L.kifOut.HoldsAll L.table
  -- numbers with at most 65535 binary digits on either side of the point
  | .other g => ∀ ins, infKif.HoldsAll (g ins)

/-- the conditions at every layer of the model -/
def PGraph.Fits (g : PGraph) : Prop := ∀ n l, g.lay n = some l → l.Fits (g.inTypes n)

theorem KIF.holds_zero {t : KIF} (hk : 0 ≤ t.k) : t.Holds 0 := by
  refine ⟨⟨0, by simp⟩, ?_, p2_pos _⟩
  have h1 : (0 : ℚ) ≤ t.k := by exact_mod_cast hk
  have := mul_nonneg h1 (p2_pos t.i).le
  change -((t.k : ℚ) * p2 t.i) ≤ 0
  linarith

theorem KIF.HoldsAll.at0 {t : KIF} {x : List ℚ} (h : t.HoldsAll x) (hk : 0 ≤ t.k) (p : ℕ) : t.Holds (at0 x p) := by
  unfold HGQ.at0
  rcases Nat.lt_or_ge p x.length with hp | hp
  · rw [getD_lt _ _ hp]; exact h _ (List.getElem_mem hp)
  · rw [List.getD, List.getElem?_eq_none hp]; exact KIF.holds_zero hk

theorem KIF.abs_le_mag {t : KIF} (hk : t.k = 0 ∨ t.k = 1) {x : ℚ} (h : t.Holds x) : |x| ≤ t.mag := by
  obtain ⟨⟨n, hn⟩, h1, h2⟩ := h
  unfold KIF.mag
  rcases hk with e | e
  · rw [if_pos e]
    rw [e] at h1; simp at h1
    rw [abs_of_nonneg h1]
    rcases le_or_gt 0 (t.i + t.f) with hw | hw
    · refine le_trans ?_ (le_max_right _ _)
      obtain ⟨m, hm⟩ := grid_p2 hw
      have hp := p2_pos (-t.f)
      change x = n * p2 (-t.f) at hn
      change x < p2 t.i at h2
      change x ≤ p2 t.i - p2 (-t.f)
      rw [hm, hn] at h2 ⊢
      have : (n : ℚ) < m := lt_of_mul_lt_mul_right h2 hp.le
      have : n + 1 ≤ m := by exact_mod_cast this
      have : (n : ℚ) + 1 ≤ m := by exact_mod_cast this
      have := mul_le_mul_of_nonneg_right this hp.le
      linarith
    · refine le_trans ?_ (le_max_left _ _)
      have hp := p2_pos (-t.f)
      have h3 : p2 t.i < p2 (-t.f) := p2_lt_p2 (by omega)
      change x = n * p2 (-t.f) at hn
      change x < p2 t.i at h2
      rw [hn] at h2 ⊢
      have : (n : ℚ) * p2 (-t.f) < 1 * p2 (-t.f) := by linarith
      have : (n : ℚ) < 1 := lt_of_mul_lt_mul_right this hp.le
      have : n < 1 := by exact_mod_cast this
      have : n ≤ 0 := by omega
      exact mul_nonpos_of_nonpos_of_nonneg (by exact_mod_cast this) hp.le
  · rw [if_neg (by omega)]
    rw [e] at h1
    rw [abs_le]; constructor
    · simpa using h1
    · exact h2.le

theorem listMax_k01 {l : List ℤ} (h : ∀ a ∈ l, a = 0 ∨ a = 1) : listMax l = 0 ∨ listMax l = 1 := by
  rcases eq_or_ne l [] with rfl | hne
  · left; rfl
  · exact h _ (listMax_mem hne)

theorem FPQ.kif_k01 {q : FPQ} (hel : ∀ e ∈ q.elems, (e.keepNegative = 0 ∨ e.keepNegative = 1) ∧ 0 ≤ e.bits) :
    q.kif.k = 0 ∨ q.kif.k = 1 := by
  apply listMax_k01
  intro a ha
  obtain ⟨e, he, rfl⟩ := List.mem_map.mp ha
  exact (hel e he).1

theorem KIF.mk.injEq' {k i f : ℤ} {t : KIF} : (⟨k, i, f⟩ : KIF) = t ↔ k = t.k ∧ i = t.i ∧ f = t.f := by
  cases t; simp

theorem FPQ.fits_keeps {q : FPQ} {inp : KIF} (hq : q.Fits inp) (hik : inp.k = 0 ∨ inp.k = 1) {x : ℚ} (hx : inp.Holds x)
    {e : ℕ} (he : e < q.elems.length) :
    (q.produced inp).2.call e x = q.call e x ∧ (q.produced inp).1.Holds (q.call e x) := by
  obtain ⟨hel, ⟨h1, h2, h3⟩ | ⟨h1, h2, h3, h4⟩ | ⟨h0, h1, h2, h3, h4, h5, h6, h7⟩ | h | h | ⟨h1, h2, h3, -, h4⟩⟩ := hq
  · rw [C35_covered_unchanged q inp h1 h2 h3]
    refine ⟨rfl, isKif_mono (q.call_holds hel he x) ?_ h1 h2 h3⟩
    have := FPQ.kif_k01 hel
    omega
  · exact C35_heterogeneous_wrap q inp h1 hel h2 h3 h4 x hx e he
  · exact C35_query_keeps_outputs_partial q h0 inp hik (FPQ.kif_k01 hel) h1 h2 h3 h4 h5 h6 h7 x hx e he
  · exact C35_elementwise_wrap q inp hel hik h x hx e he
  · obtain ⟨h0, h1, h2⟩ := C35_pruned q h inp hik x e he
    exact ⟨by rw [h0, h1], h2⟩
  · have hne : q.elems ≠ [] := by rintro h; rw [h] at he; simp at he
    rcases h4 with ⟨h5, h6⟩ | ⟨h5, h6⟩
    · exact C35_wrap_in_type q h1 hne inp hik (FPQ.kif_k01 hel) h5 h2 h3 h6 x hx e he
    · exact C35_sat_in_type q h1 hne inp hik (FPQ.kif_k01 hel) h5 h2 h3 h6 x hx e he

theorem FPQ.fits_idem {q : FPQ} {inp : KIF} (hq : q.Fits inp) (hik : inp.k = 0 ∨ inp.k = 1) (hne : q.elems ≠ []) :
    (q.produced inp).2.produced inp = q.produced inp := by
  have hk := FPQ.kif_k01 hq.1
  obtain ⟨hel, ⟨h1, h2, h3⟩ | ⟨h1, h2, h3, h4⟩ | ⟨h0, -⟩ | h | h | ⟨h0, -⟩⟩ := hq
  · rw [C35_covered_unchanged q inp h1 h2 h3]
  · exact C35_heterogeneous_idempotent q inp hne h2 h3
  · exact C35_query_idempotent q h0 hne inp (by omega) (by omega)
  · exact C35_elementwise_idempotent q inp hne hel hik h
  · exact C35_pruned_idempotent q h hne inp hik
  · exact C35_query_idempotent q h0 hne inp (by omega) (by omega)

theorem prodL_pos_of_compat : ∀ {o s : List ℕ}, Compat o s → 0 < prodL s
  | [], [], _ => by simp [prodL]
  | o :: os, q :: qs, h => by
    obtain ⟨h1, h2, h3⟩ := h
    have := prodL_pos_of_compat h3
    simp only [prodL]
    rcases h2 with rfl | rfl <;> positivity
  | [], _ :: _, h => by cases h
  | _ :: _, [], h => by cases h

theorem headD_k01 {ts : List KIF} (hk : ∀ t ∈ ts, t.k = 0 ∨ t.k = 1) : (ts.headD infKif).k = 0 ∨ (ts.headD infKif).k = 1 := by
  cases ts with
  | nil => right; rfl
  | cons t ts => exact hk t (by simp)

theorem getD_k01 {ts : List KIF} (hk : ∀ t ∈ ts, t.k = 0 ∨ t.k = 1) (n : ℕ) :
    (ts.getD n infKif).k = 0 ∨ (ts.getD n infKif).k = 1 := by
  rcases Nat.lt_or_ge n ts.length with hp | hp
  · rw [getD_lt _ _ hp]; exact hk _ (List.getElem_mem hp)
  · rw [List.getD, List.getElem?_eq_none hp]; right; rfl

theorem kifMax_k01 {ts : List KIF} (hk : ∀ t ∈ ts, t.k = 0 ∨ t.k = 1) : (kifMax ts).k = 0 ∨ (kifMax ts).k = 1 := by
  apply listMax_k01
  intro a ha
  obtain ⟨t, ht, rfl⟩ := List.mem_map.mp ha
  exact hk t ht

theorem PLay.kif_k01 {l : PLay} {ts : List KIF} (hf : l.Fits ts) (hk : ∀ t ∈ ts, t.k = 0 ∨ t.k = 1) :
    (l.kif ts).k = 0 ∨ (l.kif ts).k = 1 := by
  have hh := headD_k01 hk
  cases l with
  | input => right; rfl
  | quant q o s =>
    have := FPQ.kif_k01 hf.2.2.1
    simp only [PLay.kif, FPQ.produced_fst]
    omega
  | move _ _ _ => exact hh
  | maxPool _ _ => exact hh
  | concat _ _ => exact kifMax_k01 hk
  | avgPool _ _ _ => exact hh
  | add _ => exact kifMax_k01 hk
  | sub _ => exact kifMax_k01 hk
  | dot _ _ =>
    have h0 := getD_k01 hk 0
    have h1 := getD_k01 hk 1
    simp only [PLay.kif, dotKif]
    omega
  | linear _ _ _ _ _ _ =>
    simp only [PLay.kif, linearKif]
    split_ifs <;> simp
  | act _ _ _ => exact arrContainer_k _
  | softmax _ _ => left; rfl
  | lut L => exact hf.1
  | other _ => right; rfl

/-- the tensors of the inbound layers hold values of the types derived for them -/
abbrev InsHold (ts : List KIF) (ins : List (List ℚ)) : Prop := List.Forall₂ KIF.HoldsAll ts ins

theorem InsHold.head {ts : List KIF} {ins : List (List ℚ)} (h : InsHold ts ins) :
    (ts.headD infKif).HoldsAll (ins.headD []) := by
  cases h with
  | nil => intro v hv; cases hv
  | cons h _ => exact h

theorem InsHold.get {ts : List KIF} {ins : List (List ℚ)} (h : InsHold ts ins) (hk : ∀ t ∈ ts, t.k = 0 ∨ t.k = 1) (j p : ℕ) :
    ∃ t, (t ∈ ts ∨ at0 (ins.getD j []) p = 0) ∧ t.Holds (at0 (ins.getD j []) p) ∧ 0 ≤ t.k := by
  induction h generalizing j with
  | nil => exact ⟨infKif, .inr (by simp [at0]), by simpa [at0] using KIF.holds_zero (t := infKif) (by decide), by decide⟩
  | @cons t x ts ins h _ ih =>
    cases j with
    | zero =>
      have := hk t (by simp)
      exact ⟨t, .inl (by simp), by simpa using h.at0 (by omega) p, by omega⟩
    | succ j =>
      obtain ⟨t', h1, h2, h3⟩ := ih (fun t ht => hk t (by simp [ht])) j
      refine ⟨t', ?_, by simpa using h2, h3⟩
      rcases h1 with h1 | h1
      · left; simp [h1]
      · right; simpa using h1

theorem InsHold.sums {ts : List KIF} {ins : List (List ℚ)} (h : InsHold ts ins) (hk : ∀ t ∈ ts, t.k = 0 ∨ t.k = 1) (p : ℕ) :
    List.Forall₂ KIF.Holds ts (ins.map (at0 · p)) := by
  induction h with
  | nil => exact .nil
  | @cons t x ts ins h _ ih =>
    have := hk t (by simp)
    exact .cons (h.at0 (by omega) p) (ih fun t ht => hk t (by simp [ht]))

theorem abs_sum_mul_le (xs : List (ℚ × ℚ)) (M : ℚ) (h : ∀ p ∈ xs, |p.1| ≤ M) :
    |(xs.map fun p => p.1 * p.2).sum| ≤ M * (xs.map fun p => |p.2|).sum := by
  induction xs with
  | nil => simp
  | cons a xs ih =>
    simp only [List.map_cons, List.sum_cons]
    have h1 := ih fun p hp => h p (by simp [hp])
    have h2 := mul_le_mul_of_nonneg_right (h a (by simp)) (abs_nonneg a.2)
    rw [← abs_mul] at h2
    have h3 := abs_add_le (a.1 * a.2) (xs.map fun p => p.1 * p.2).sum
    linarith

theorem linear_holds (inp : KIF) (hk : inp.k = 0 ∨ inp.k = 1) (kernel bias : List ℚ) (units : ℕ) (terms : List (ℚ × ℚ)) (b : ℚ)
    (hgrid : ∀ w ∈ kernel, ∃ n : ℤ, w = n * (2 : ℚ) ^ (-32 : ℤ))
    (hx : ∀ p ∈ terms, inp.Holds p.1) (hw : ∀ p ∈ terms, p.2 ∈ kernel) (hb : b ∈ bias ∨ b = 0)
    (hbg : ∃ n : ℤ, b = n * (2 : ℚ) ^ (-(linearKif inp kernel bias units).f))
    (hr : inp.mag * (terms.map fun p => |p.2|).sum + |b| < (2 : ℚ) ^ (linearKif inp kernel bias units).i) :
    (linearKif inp kernel bias units).Holds ((terms.map fun p => p.1 * p.2).sum + b) := by
  have ha := abs_sum_mul_le terms inp.mag fun p hp => KIF.abs_le_mag hk (hx p hp)
  have hr' : |(terms.map fun p => p.1 * p.2).sum + b| < (2 : ℚ) ^ (linearKif inp kernel bias units).i := by
    have := abs_add_le (terms.map fun p => p.1 * p.2).sum b
    linarith
  rcases hb with hb | rfl
  · exact C34_linear_bias_partial inp kernel bias units terms b hgrid hx hw hb hbg hr'
  · have h0 : linearKif inp kernel [0] units = ⟨if inp.k ≠ 0 ∨ (arrContainer kernel).k ≠ 0 then 1 else 0,
        inp.i + (arrContainer kernel).i + Nat.clog 2 (kernel.length / units), inp.f + (arrContainer kernel).f⟩ := by
      simp [linearKif]
    have h1 := C34_linear_bias_partial inp kernel [0] units terms 0 hgrid hx hw (by simp) (by exact hbg) (by exact hr')
    unfold KIF.Holds at h1 ⊢
    rw [h0] at h1
    refine isKif_mono h1 ?_ ?_ le_rfl le_rfl
    · simp only; split_ifs <;> simp
    · simp only [linearKif]
      split_ifs with h2 h3 <;> simp at *
      tauto

/-- For a layer that fits: its outputs are values of the derived type, and the layer computes the same after it has been
asked. -/
theorem PLay.sound {l : PLay} {ts : List KIF} (hf : l.Fits ts) (hk : ∀ t ∈ ts, t.k = 0 ∨ t.k = 1) (hl : l ≠ .input)
    {ins : List (List ℚ)} (hi : InsHold ts ins) :
    (l.kif ts).HoldsAll (l.eval ins) ∧ (l.after ts).eval ins = l.eval ins := by
  have hh := headD_k01 hk
  have hd := hi.head
  cases l with
  | input => exact absurd rfl hl
  | quant q o s =>
    obtain ⟨hc, hlen, hq⟩ := hf
    have key : ∀ p < prodL o, ((q.produced (ts.headD infKif)).2.call (elemOf o s p) (at0 (ins.headD []) p) =
        q.call (elemOf o s p) (at0 (ins.headD []) p)) ∧
        (q.produced (ts.headD infKif)).1.Holds (q.call (elemOf o s p) (at0 (ins.headD []) p)) := fun p hp =>
      FPQ.fits_keeps hq hh (hd.at0 (by omega) p) (by rw [hlen]; exact elemOf_lt hc hp)
    constructor
    · intro v hv
      simp only [PLay.eval, List.mem_map, List.mem_range] at hv
      obtain ⟨p, hp, rfl⟩ := hv
      exact (key p hp).2
    · simp only [PLay.after, PLay.eval]
      apply List.map_congr_left
      intro p hp
      exact (key p (List.mem_range.mp hp)).1
  | move th n src =>
    refine ⟨?_, rfl⟩
    intro v hv
    simp only [PLay.eval, List.mem_map, List.mem_range] at hv
    obtain ⟨p, hp, rfl⟩ := hv
    exact hd.at0 (by omega) _
  | maxPool n win =>
    refine ⟨?_, rfl⟩
    intro v hv
    simp only [PLay.eval, List.mem_map, List.mem_range] at hv
    obtain ⟨p, hp, rfl⟩ := hv
    apply C34_max_pool _ _ _ (hd.at0 (by omega) _)
    intro y hy
    obtain ⟨j, _, rfl⟩ := List.mem_map.mp hy
    exact hd.at0 (by omega) _
  | concat n src =>
    refine ⟨?_, rfl⟩
    intro v hv
    simp only [PLay.eval, List.mem_map, List.mem_range] at hv
    obtain ⟨p, hp, rfl⟩ := hv
    obtain ⟨t, h1, h2, h3⟩ := hi.get hk (src p).1 (src p).2
    rcases h1 with h1 | h1
    · exact C34_concatenate ts t h1 h3 _ h2
    · rw [h1]
      have := kifMax_k01 hk
      exact KIF.holds_zero (t := kifMax ts) (by omega)
  | avgPool size n win =>
    refine ⟨?_, rfl⟩
    intro v hv
    simp only [PLay.eval, List.mem_map, List.mem_range] at hv
    obtain ⟨p, hp, rfl⟩ := hv
    obtain ⟨m, h1, h2⟩ := hf p hp
    have := C34_avg_pool_partial (ts.headD infKif) (by omega) m ((win p).map (at0 (ins.headD []))) (by simpa using h1) (by
      intro x hx
      obtain ⟨j, _, rfl⟩ := List.mem_map.mp hx
      exact hd.at0 (by omega) _)
    rw [List.length_map] at this
    refine isKif_mono this (by simp only [avgPoolKif]; omega) le_rfl le_rfl ?_
    have := Nat.clog_mono_right 2 h2
    simp only [PLay.kif, avgPoolKif]
    omega
  | add n =>
    refine ⟨?_, rfl⟩
    intro v hv
    simp only [PLay.eval, List.mem_map, List.mem_range] at hv
    obtain ⟨p, hp, rfl⟩ := hv
    exact C34_add ts _ (hi.sums hk p) fun t ht => by have := hk t ht; omega
  | sub n =>
    refine ⟨?_, rfl⟩
    obtain ⟨a, b, rfl, hs⟩ := hf
    intro v hv
    simp only [PLay.eval, List.mem_map, List.mem_range] at hv
    obtain ⟨p, hp, rfl⟩ := hv
    have ha := hk a (by simp)
    have hb := hk b (by simp)
    obtain ⟨x, r, h1, h2, rfl⟩ := List.forall₂_cons_left_iff.mp hi
    obtain ⟨y, r', h3, h4, rfl⟩ := List.forall₂_cons_left_iff.mp h2
    exact C34_subtract_partial a b _ _ (h1.at0 (by omega) p) (h3.at0 (by omega) p) ha hb hs
  | dot n terms =>
    refine ⟨?_, rfl⟩
    obtain ⟨a, b, rfl, hs, hone⟩ := hf
    intro v hv
    simp only [PLay.eval, List.mem_map, List.mem_range] at hv
    obtain ⟨p, hp, rfl⟩ := hv
    have ha := hk a (by simp)
    have hb := hk b (by simp)
    obtain ⟨x, r, h1, h2, rfl⟩ := List.forall₂_cons_left_iff.mp hi
    obtain ⟨y, r', h3, h4, rfl⟩ := List.forall₂_cons_left_iff.mp h2
    obtain ⟨t, ht⟩ := List.length_eq_one_iff.mp (hone p hp)
    rw [ht]
    exact C34_dot_partial a b _ _ (h1.at0 (by omega) t.1) (h3.at0 (by omega) t.2) ha hb hs
  | linear kernel bias div n taps chan =>
    refine ⟨?_, rfl⟩
    obtain ⟨hg, hbg, hr⟩ := hf
    intro v hv
    simp only [PLay.eval, List.mem_map, List.mem_range] at hv
    obtain ⟨p, hp, rfl⟩ := hv
    obtain ⟨ht, hlt⟩ := hr p hp
    have hb : at0 bias (chan p) ∈ bias ∨ at0 bias (chan p) = 0 := by
      unfold at0
      rcases Nat.lt_or_ge (chan p) bias.length with h | h
      · left; rw [getD_lt _ _ h]; exact List.getElem_mem h
      · right; rw [List.getD, List.getElem?_eq_none h]; rfl
    have := linear_holds (ts.headD infKif) hh kernel bias div
      ((taps p).map fun t => (at0 (ins.headD []) t.1, at0 kernel t.2)) (at0 bias (chan p)) hg (by
        intro q hq
        obtain ⟨t, _, rfl⟩ := List.mem_map.mp hq
        exact hd.at0 (by omega) _) (by
        intro q hq
        obtain ⟨t, h, rfl⟩ := List.mem_map.mp hq
        simp only [at0]
        rw [getD_lt _ _ (ht t h)]; exact List.getElem_mem _) hb (by
        rcases hb with h | h
        · exact hbg _ h
        · exact ⟨0, by rw [h]; simp⟩) (by rw [List.map_map]; exact hlt)
    rw [List.map_map] at this
    exact this
  | act isAct fn phi =>
    refine ⟨?_, rfl⟩
    obtain ⟨hne, hw, hphi⟩ := hf
    intro v hv
    simp only [PLay.eval, List.mem_map] at hv
    obtain ⟨x, hx, rfl⟩ := hv
    have hx' := hd x hx
    cases ts with
    | nil => exact absurd rfl hne
    | cons t ts =>
      have := hk t (by simp)
      have hm := holds_max (ts := t :: ts) (by simp) (by omega) hx'
      exact C33_activation_covers phi _ _ _ (kifMax_k01 hk) hw hphi x hm
  | softmax isAct g => exact ⟨hf _, rfl⟩
  | lut L =>
    refine ⟨?_, rfl⟩
    obtain ⟨h1, h2⟩ := hf
    intro v hv
    simp only [PLay.eval, List.mem_map] at hv
    obtain ⟨x, hx, rfl⟩ := hv
    exact KIF.HoldsAll.at0 h2 (by omega) _
  | other g => exact ⟨hf _, rfl⟩

/-- asking a layer again gives the same answer and the same layer -/
theorem PLay.idem {l : PLay} {ts : List KIF} (hf : l.Fits ts) (hk : ∀ t ∈ ts, t.k = 0 ∨ t.k = 1) :
    (l.after ts).kif ts = l.kif ts ∧ (l.after ts).after ts = l.after ts := by
  have hh := headD_k01 hk
  cases l with
  | quant q o s =>
    obtain ⟨hc, hlen, hq⟩ := hf
    have hne : q.elems ≠ [] := by
      intro h
      rw [h] at hlen
      have := prodL_pos_of_compat hc
      simp at hlen; omega
    have := FPQ.fits_idem hq hh hne
    simp only [PLay.after, PLay.kif, this, and_self]
  | _ => exact ⟨rfl, rfl⟩

end HGQ
