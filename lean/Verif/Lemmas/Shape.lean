import Verif.Model.Shape
import Mathlib.Tactic.Linarith
import Mathlib.Tactic.Ring

namespace HGQ

theorem prodL_pos : ∀ {l : List ℕ}, (∀ d ∈ l, 0 < d) → 0 < prodL l
  | [], _ => by simp [prodL]
  | d :: ds, h => by
    unfold prodL
    exact Nat.mul_pos (h d (by simp)) (prodL_pos fun x hx => h x (by simp [hx]))

theorem unravel_length : ∀ (sh : List ℕ) (p : ℕ), (unravel sh p).length = sh.length
  | [], _ => rfl
  | _ :: ds, p => by simp [unravel, unravel_length ds]

/-- valid multi-index -/
def ValidIdx : List ℕ → List ℕ → Prop
  | [], [] => True
  | d :: ds, i :: is => i < d ∧ ValidIdx ds is
  | _, _ => False

theorem ravel_lt : ∀ {sh idx : List ℕ}, ValidIdx sh idx → ravel sh idx < prodL sh
  | [], [], _ => by simp [ravel, prodL]
  | d :: ds, i :: is, h => by
    have ih := ravel_lt h.2
    have : i + 1 ≤ d := h.1
    change i * prodL ds + ravel ds is < d * prodL ds
    calc i * prodL ds + ravel ds is < i * prodL ds + prodL ds := by omega
      _ = (i + 1) * prodL ds := by ring
      _ ≤ d * prodL ds := Nat.mul_le_mul_right _ this
  | [], _ :: _, h => h.elim
  | _ :: _, [], h => h.elim

theorem unravel_ravel : ∀ {sh idx : List ℕ}, ValidIdx sh idx → unravel sh (ravel sh idx) = idx
  | [], [], _ => rfl
  | d :: ds, i :: is, h => by
    have hlt := ravel_lt h.2
    unfold ravel unravel
    have h1 : (i * prodL ds + ravel ds is) / prodL ds = i := by
      rw [mul_comm, Nat.mul_add_div (by omega), Nat.div_eq_of_lt hlt]; rfl
    have h2 : (i * prodL ds + ravel ds is) % prodL ds = ravel ds is := by
      rw [mul_comm, Nat.mul_add_mod, Nat.mod_eq_of_lt hlt]
    rw [h1, h2, unravel_ravel h.2]
  | [], _ :: _, h => h.elim
  | _ :: _, [], h => h.elim

theorem valid_unravel : ∀ {sh : List ℕ} {p : ℕ}, p < prodL sh → ValidIdx sh (unravel sh p)
  | [], _, _ => trivial
  | d :: ds, p, h => by
    unfold prodL at h
    have hpos : 0 < prodL ds := by
      by_contra hc
      have : prodL ds = 0 := by omega
      rw [this] at h; simp at h
    unfold unravel
    exact ⟨(Nat.div_lt_iff_lt_mul hpos).mpr h, valid_unravel (Nat.mod_lt _ hpos)⟩

theorem ravel_unravel : ∀ {sh : List ℕ} {p : ℕ}, p < prodL sh → ravel sh (unravel sh p) = p
  | [], p, h => by simp [prodL] at h; simp [ravel, h]
  | d :: ds, p, h => by
    unfold prodL at h
    have hpos : 0 < prodL ds := by
      by_contra hc
      have : prodL ds = 0 := by omega
      rw [this] at h; simp at h
    unfold unravel ravel
    rw [ravel_unravel (Nat.mod_lt _ hpos), mul_comm]
    exact Nat.div_add_mod p (prodL ds)

theorem valid_bcast : ∀ {os qs idx : List ℕ}, Compat os qs → ValidIdx os idx → ValidIdx qs (bcastIdx qs idx)
  | [], [], [], _, _ => trivial
  | o :: os, q :: qs, i :: is, hc, hv => by
    unfold bcastIdx
    refine ⟨?_, valid_bcast hc.2.2 hv.2⟩
    rcases hc.2.1 with rfl | rfl
    · simp
    · split_ifs with h
      · omega
      · exact hv.1
  | [], _ :: _, _, h, _ => h.elim
  | _ :: _, [], _, h, _ => h.elim
  | [], [], _ :: _, _, h => h.elim
  | _ :: _, _ :: _, [], _, h => h.elim

theorem elemOf_lt {os qs : List ℕ} (hc : Compat os qs) {p : ℕ} (hp : p < prodL os) : elemOf os qs p < prodL qs :=
  ravel_lt (valid_bcast hc (valid_unravel hp))

theorem compat_length : ∀ {os qs : List ℕ}, Compat os qs → os.length = qs.length
  | [], [], _ => rfl
  | _ :: os, _ :: qs, h => by simp [compat_length h.2.2]
  | [], _ :: _, h => h.elim
  | _ :: _, [], h => h.elim

theorem atLoc_first_bcast {os qs idx : List ℕ} (hc : Compat os qs) (hv : ValidIdx os idx) :
    atLoc .first (bcastIdx qs idx) = if atLoc .first qs = 1 then 0 else atLoc .first idx := by
  match os, qs, idx, hc, hv with
  | [], [], [], _, _ => simp [atLoc, bcastIdx]
  | o :: os, q :: qs, i :: is, _, _ => simp [atLoc, bcastIdx]

theorem atLoc_last_bcast : ∀ {os qs idx : List ℕ}, Compat os qs → ValidIdx os idx →
    atLoc .last (bcastIdx qs idx) = if atLoc .last qs = 1 then 0 else atLoc .last idx
  | [], [], [], _, _ => by simp [atLoc, bcastIdx]
  | [o], [q], [i], _, _ => by simp [atLoc, bcastIdx]
  | o :: o' :: os, q :: q' :: qs, i :: i' :: is, hc, hv => by
    have ih := atLoc_last_bcast hc.2.2 hv.2
    simp only [atLoc, bcastIdx, List.getLastD_cons] at ih ⊢
    exact ih
  | [], _ :: _, _, h, _ => h.elim
  | _ :: _, [], _, h, _ => h.elim
  | [], [], _ :: _, _, h => h.elim
  | _ :: _, _ :: _, [], _, h => h.elim
  | [_], _ :: _ :: _, _, h, _ => h.2.2.elim
  | _ :: _ :: _, [_], _, h, _ => h.2.2.elim
  | [_], [_], _ :: _ :: _, _, h => h.2.elim
  | _ :: _ :: _, _ :: _ :: _, [_], _, h => h.2.elim

theorem atLoc_bcast (loc : ChLoc) {os qs idx : List ℕ} (hc : Compat os qs) (hv : ValidIdx os idx) :
    atLoc loc (bcastIdx qs idx) = if atLoc loc qs = 1 then 0 else atLoc loc idx := by
  cases loc
  · exact atLoc_first_bcast hc hv
  · exact atLoc_last_bcast hc hv

/-- the element used at a position is among those reduced for its channel -/
theorem elemOf_mem_redElems {os qs : List ℕ} (hc : Compat os qs) (loc : ChLoc) {p : ℕ} (hp : p < prodL os) :
    elemOf os qs p ∈ redElems qs loc (chanOf os loc p) := by
  unfold redElems
  rw [List.mem_filter]
  refine ⟨List.mem_range.mpr (elemOf_lt hc hp), ?_⟩
  rw [decide_eq_true_eq]
  unfold elemOf chanOf
  rw [unravel_ravel (valid_bcast hc (valid_unravel hp)), atLoc_bcast loc hc (valid_unravel hp)]

theorem bcast_all_one : ∀ {qs idx idx' : List ℕ}, (∀ q ∈ qs, q = 1) → idx.length = idx'.length →
    bcastIdx qs idx = bcastIdx qs idx'
  | [], _, _, _, _ => rfl
  | q :: qs, [], [], _, _ => rfl
  | q :: qs, i :: is, j :: js, h, hl => by
    unfold bcastIdx
    rw [if_pos (h q (by simp)), if_pos (h q (by simp)),
      bcast_all_one (fun x hx => h x (by simp [hx])) (by simpa using hl)]

theorem bcast_dropLast_one : ∀ {qs idx idx' : List ℕ}, (∀ q ∈ qs.dropLast, q = 1) → idx.length = qs.length →
    idx'.length = qs.length → atLoc .last idx = atLoc .last idx' → bcastIdx qs idx = bcastIdx qs idx'
  | [], _, _, _, _, _, _ => rfl
  | [q], [i], [j], _, _, _, h => by
    simp [atLoc] at h; simp [bcastIdx, h]
  | q :: q' :: qs, i :: i' :: is, j :: j' :: js, h, hl, hl', he => by
    have h1 : q = 1 := h q (by simp)
    have ih := bcast_dropLast_one (qs := q' :: qs) (idx := i' :: is) (idx' := j' :: js)
      (fun x hx => h x (by simp [hx])) (by simpa using hl) (by simpa using hl')
      (by simpa [atLoc] using he)
    change (if q = 1 then 0 else i) :: bcastIdx (q' :: qs) (i' :: is) =
      (if q = 1 then 0 else j) :: bcastIdx (q' :: qs) (j' :: js)
    rw [if_pos h1, if_pos h1, ih]

theorem prodL_eq_one : ∀ {l : List ℕ}, prodL l = 1 → ∀ q ∈ l, q = 1
  | [], _, q, hq => by simp at hq
  | d :: ds, h, q, hq => by
    unfold prodL at h
    have h1 := Nat.eq_one_of_mul_eq_one_right h
    have h2 := Nat.eq_one_of_mul_eq_one_left h
    rcases List.mem_cons.mp hq with rfl | hq
    · exact h1
    · exact prodL_eq_one h2 q hq

end HGQ
