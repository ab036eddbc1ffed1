import Verif.Model.Net32
import Verif.Props.LayerFloat32
import Verif.Props.Net

namespace HGQ
open Spec

/-! ### the quantizers in float32, values just below half a unit included -/

/-- the rounding of the inference quantizer in float32 -/
def rnd32 (st : ℤ) (s : ℚ) : ℤ := if st = 3 then flr s else flr (fl32 (s + 1 / 2))

theorem int_half_float {m : ℤ} (hm : |m| ≤ 2 ^ 22) : IsFloat32 ((m : ℚ) + 1 / 2) := by
  refine isFloat32_half ⟨2 * m + 1, by push_cast; ring⟩ ?_
  have h : |(m : ℚ)| ≤ 2 ^ 22 := by exact_mod_cast hm
  have := abs_le.mp h
  rw [abs_le]; constructor <;> linarith

theorem rnd32_small (st : ℤ) {s : ℚ} {m : ℤ} (hm : |m| ≤ 2 ^ 22) :
    (s ≤ m → rnd32 st s ≤ m) ∧ ((m : ℚ) ≤ s → m ≤ rnd32 st s) := by
  have hf : IsFloat32 (m : ℚ) := isFloat32_int m (by omega)
  have hh := int_half_float hm
  unfold rnd32
  constructor
  · intro h
    split_ifs
    · have := flr_mono h; rwa [flr_int] at this
    · have h1 := flr_mono (fl32_le_of_le hh (show s + 1 / 2 ≤ m + 1 / 2 by linarith))
      rwa [flr_int_half] at h1
  · intro h
    split_ifs
    · exact le_flr.mpr h
    · exact le_flr.mpr (le_fl32_of_le hf (by linarith))

theorem rnd32_abs (st : ℤ) {s : ℚ} (hs : |s| ≤ 2 ^ 22) : |rnd32 st s| ≤ 2 ^ 22 := by
  have h := abs_le.mp hs
  have h1 := (rnd32_small st (s := s) (m := 2 ^ 22) (by norm_num)).1 (by push_cast; linarith)
  have h2 := (rnd32_small st (s := s) (m := -2 ^ 22) (by norm_num)).2 (by push_cast; linarith)
  rw [abs_le]; exact ⟨h2, h1⟩

theorem rnd32_mono (st : ℤ) {s : ℚ} {m : ℤ} (hs : |s| ≤ 2 ^ 22) :
    (s ≤ m → rnd32 st s ≤ m) ∧ ((m : ℚ) ≤ s → m ≤ rnd32 st s) := by
  by_cases hm : |m| ≤ 2 ^ 22
  · exact rnd32_small st hm
  · have hn := abs_le.mp (rnd32_abs st hs)
    have hs' := abs_le.mp hs
    push Not at hm
    constructor
    · intro h
      rcases lt_abs.mp hm with h' | h'
      · omega
      · have : (m : ℚ) < -2 ^ 22 := by exact_mod_cast (by omega : m < -2 ^ 22)
        linarith
    · intro h
      rcases lt_abs.mp hm with h' | h'
      · have : (2 : ℚ) ^ 22 < m := by exact_mod_cast h'
        linarith
      · omega

theorem rnd32_near (st : ℤ) {s : ℚ} (hs : |s| ≤ 2 ^ 22) : |(rnd32 st s : ℚ) - s| ≤ 1 := by
  have h1 := flr_le s
  have h2 := lt_flr_add_one s
  have h3 := (rnd32_mono st (m := flr s) hs).2 h1
  have h4 := (rnd32_mono st (m := flr s + 1) hs).1 (by push_cast; linarith)
  have h3' : (flr s : ℚ) ≤ rnd32 st s := by exact_mod_cast h3
  have h4' : (rnd32 st s : ℚ) ≤ flr s + 1 := by exact_mod_cast h4
  rw [abs_le]; constructor <;> linarith

theorem rndMap32_evalRnd (st : ℤ) (s : ℚ) : rndMapF fl32 (evalRnd st) s = rnd32 st s := by
  unfold rnd32 evalRnd
  by_cases h : st = 3
  · simp [h, rndMapF]
  · simp [h, rndMapF]

/-- the inference quantizer in float32 -/
theorem evalQ32_rnd (st : ℤ) {fbw x : ℚ} (hx : IsFloat32 x) (hb : |x * p2 (tfRound fbw)| < 2 ^ 22) :
    evalQF fl32 st fbw x = rnd32 st (x * p2 (tfRound fbw)) * p2 (-tfRound fbw) := by
  set f := tfRound fbw with hf
  have hs := hx.mul_p2 f
  have hn := rnd32_abs st hb.le
  unfold evalQF
  dsimp only
  rw [← hf, hs.fl, div_p2]
  have e : (if st = 3 then (flr (x * p2 f) : ℚ) else flr (fl32 (x * p2 f + 1 / 2))) = rnd32 st (x * p2 f) := by
    unfold rnd32; split_ifs <;> rfl
  rw [e]
  set n := rnd32 st (x * p2 f) with hnn
  have hq : IsFloat32 ((n : ℚ) * p2 (-f)) := (isFloat32_int n (by omega)).mul_p2 _
  rw [hq.fl]
  refine straightThrough hx (by omega) ?_
  have hp := p2_pos (-f)
  have h1 := rnd32_near st hb.le
  rw [← hnn] at h1
  have hxe : x = x * p2 f * p2 (-f) := by rw [mul_assoc, p2_mul_neg, mul_one]
  have : (n : ℚ) * p2 (-f) - x = (n - x * p2 f) * p2 (-f) := by rw [sub_mul, ← hxe]
  rw [this, abs_mul, abs_of_pos hp]
  calc _ ≤ 1 * p2 (-f) := mul_le_mul_of_nonneg_right h1 hp.le
    _ = _ := one_mul _

/-- the fixed-point quantizer in float32 -/
theorem gfixed32_rnd (st : ℤ) {x : ℚ} {k b i : ℤ} (S : Sat) (hx : IsFloat32 x) (hk : k = 0 ∨ k = 1) (hb0 : 0 ≤ b) (hb22 : b ≤ 22)
    (hb : |x * p2 (b - i)| < 2 ^ 22) :
    gfixedQuantizerF fl32 x k b i (evalRnd st) S =
      gfixedQuantizer (rnd32 st (x * p2 (b - i)) * p2 (-(b - i))) k b i (evalRnd st) S := by
  have hs := hx.mul_p2 (b - i)
  have hn := rnd32_abs st hb.le
  unfold gfixedQuantizerF gfixedQuantizer
  dsimp only
  rw [hs.fl, rndMap32_evalRnd]
  set n := rnd32 st (x * p2 (b - i)) with hnn
  rw [mul_assoc, p2_neg_mul, mul_one, rndMap_fix]
  obtain ⟨he, hH, hbd⟩ := satMap32_eq S (r := (n : ℚ)) ⟨n, rfl⟩ (by exact_mod_cast hn) hk hb0 hb22
  rw [he, div_p2]
  have hq := (isFloat32_half hH hbd).mul_p2 (-(b - i))
  rw [hq.fl]
  split_ifs
  · rw [mul_one, hq.fl]
  · rw [mul_zero, fl32_zero]

/-- an activation quantizer and its proxy in float32 -/
theorem site_proxy32 (q : QSite) (s : QState) (aggressive : Bool) (x : ℚ) (p : ℕ) (lo hi : ℚ)
    (ht : Traced s (q.elem p) lo hi) (hx : IsFloat32 x) (hb : |x * p2 (tfRound (s.fbw (q.elem p)))| < 2 ^ 22)
    (hbits : (q.bitsAt s p).k + (q.bitsAt s p).i + (q.bitsAt s p).f ≤ 22)
    (h1 : lo ≤ evalQF fl32 q.conf.strategy (s.fbw (q.elem p)) x) (h2 : evalQF fl32 q.conf.strategy (s.fbw (q.elem p)) x ≤ hi) :
    (proxyQ (q.bitsAt s p)).applyF fl32 (proxyRnd q.conf.strategy false) (proxySat aggressive) x =
      evalQF fl32 q.conf.strategy (s.fbw (q.elem p)) x := by
  set f := tfRound (s.fbw (q.elem p)) with hf
  have hev := evalQ32_rnd q.conf.strategy hx hb
  rw [← hf] at hev
  have hgrid := evalQ_of_grid q.conf.strategy (s.fbw (q.elem p)) (rnd32 q.conf.strategy (x * p2 f))
  rw [← hf, ← hev] at hgrid
  have hsp := site_proxy q s aggressive (evalQF fl32 q.conf.strategy (s.fbw (q.elem p)) x) p lo hi ht (by rw [hgrid]; exact h1)
    (by rw [hgrid]; exact h2)
  rw [hgrid] at hsp
  conv_rhs => rw [← hsp]
  change (KBI.init _ _ _).applyF fl32 _ _ _ = (KBI.init (q.bitsAt s p).k _ _).apply _ _ _
  rw [init_apply, init_apply32, proxyRnd_uncovered]
  have hrnd : -32 ≤ f := tfRound_ge (by exact_mod_cast ht.fb)
  have hwf := bitsExact_wf ((s.mn (q.elem p)).untopD 0) ((s.mx (q.elem p)).unbotD 0) (s.fbw (q.elem p)) false hrnd
  change (_ ∧ _ ∧ _) at hwf
  rcases hwf.2.2 with h | h
  · have hff : (q.bitsAt s p).f = f := h
    have hbi : (q.bitsAt s p).k + (q.bitsAt s p).i + (q.bitsAt s p).f - ((q.bitsAt s p).k + (q.bitsAt s p).i) = f := by omega
    rw [gfixed32_rnd q.conf.strategy (k := (q.bitsAt s p).k) (b := (q.bitsAt s p).k + (q.bitsAt s p).i + (q.bitsAt s p).f)
      (i := (q.bitsAt s p).k + (q.bitsAt s p).i) _ hx hwf.1 hwf.2.1 hbits (by rw [hbi]; exact hb), hbi, hev]
  · have hz : q.bitsAt s p = ⟨0, 0, 0⟩ := h
    rw [hz]
    change gfixedQuantizerF fl32 _ _ (0 + 0 + 0) _ _ _ = gfixedQuantizer _ _ (0 + 0 + 0) _ _ _
    rw [show (0 : ℤ) + 0 + 0 = 0 from rfl, gfixed32_zero_bits, gfixed_zero_bits]

theorem evalQ32_between {st : ℤ} {fbw x : ℚ} {a b : ℤ} (hf : 0 ≤ tfRound fbw) (hx : IsFloat32 x)
    (hb : |x * p2 (tfRound fbw)| < 2 ^ 22) (h1 : (a : ℚ) ≤ x) (h2 : x ≤ b) :
    (a : ℚ) ≤ evalQF fl32 st fbw x ∧ evalQF fl32 st fbw x ≤ b := by
  rw [evalQ32_rnd st hx hb]
  set f := tfRound fbw with hfd
  obtain ⟨k, hk⟩ := Int.eq_ofNat_of_zero_le hf
  have hp : p2 f = ((2 ^ k : ℤ) : ℚ) := by rw [hk]; exact p2_natCast k
  have hpos := p2_pos f
  have hneg := p2_pos (-f)
  have key : ∀ c : ℤ, (c : ℚ) = ((c * 2 ^ k : ℤ) : ℚ) * p2 (-f) := by
    intro c; push_cast; rw [mul_assoc, show ((2 : ℚ) ^ k) = p2 f by rw [hp]; push_cast; rfl, p2_mul_neg, mul_one]
  constructor
  · rw [key a]
    refine mul_le_mul_of_nonneg_right ?_ hneg.le
    have := (rnd32_mono st (m := a * 2 ^ k) hb.le).2 (by
      push_cast at hp ⊢; rw [← hp]; exact mul_le_mul_of_nonneg_right h1 hpos.le)
    exact_mod_cast this
  · rw [key b]
    refine mul_le_mul_of_nonneg_right ?_ hneg.le
    have := (rnd32_mono st (m := b * 2 ^ k) hb.le).1 (by
      push_cast at hp ⊢; rw [← hp]; exact mul_le_mul_of_nonneg_right h2 hpos.le)
    exact_mod_cast this

/-! ### layers -/

/-- a value handed to a quantizer: a float32 number below `2^22` units -/
def FitsVal (fbw x : ℚ) : Prop := IsFloat32 x ∧ |x * (2 : ℚ) ^ tfRound fbw| < 2 ^ 22

/-- What keeps the float32 computation of a layer on these inputs exact up to the rounding of its quantizer; only the bitwidths of `s`
matter. For layers with a kernel see `LinLayer.Fits32`. -/
def Node.Fits (nd : Node) (s : QState) (ins : List (List ℚ)) : Prop :=
  match nd with
  | .quantize q => ∀ p < prodL q.outShape, FitsVal (s.fbw (q.elem p)) ((ins.headD []).getD p 0)
  | .activation _ φ q => ∀ p < prodL q.outShape, FitsVal (s.fbw (q.elem p)) ((φ (ins.headD [])).getD p 0)
  | .add q => ∀ p < prodL q.outShape, ∃ F : ℤ, tfRound (s.fbw (q.elem p)) + 1 ≤ F ∧
      (∀ x ∈ ins, ∃ n : ℤ, x.getD p 0 = n * (2 : ℚ) ^ (-F)) ∧
      (ins.map fun x => |x.getD p 0|).sum < 2 ^ 23 * (2 : ℚ) ^ (-F)
  | .linear L => ∀ p < prodL L.outShape, ∃ fx fw F : ℤ, L.Fits32 s (ins.headD []) p fx fw F
  | .passive _ => True

theorem Node.Fits.congr {nd : Node} {s s' : QState} {ins : List (List ℚ)} (h : nd.Fits s ins) (he : s'.fbw = s.fbw) :
    nd.Fits s' ins := by
  cases nd with
  | quantize q => intro p hp; rw [he]; exact h p hp
  | activation k φ q => intro p hp; rw [he]; exact h p hp
  | add q => intro p hp; rw [he]; exact h p hp
  | linear L =>
    intro p hp
    obtain ⟨fx, fw, F, hf⟩ := h p hp
    exact ⟨fx, fw, F, hf.input, hf.weight, by rw [he]; exact hf.bias, hf.grid, by rw [he]; exact hf.act, hf.three,
      by rw [he]; exact hf.sum⟩
  | passive g => trivial

/-- the orders accumulate the terms of the layer, each once -/
def Node.Ordered (nd : Node) (n : ℕ) (o : ℕ → Acc (ℕ × ℕ)) : Prop :=
  ∀ q, nd.site = some q → ∀ p < prodL q.outShape, (o p).terms.Perm (nd.terms n p)

/-- the value handed to the quantizer, in any order -/
def Node.val32 (nd : Node) (fbw : ℕ → ℚ) (ins : List (List ℚ)) (p : ℕ) : ℚ :=
  match nd with
  | .linear L => L.preact (L.qkernelF fl32) (L.jitBiasF fl32 fbw) (ins.headD []) p
  | nd => nd.preAt fbw ins p

theorem sum_range_getD {α : Type} (l : List α) (d : α) (g : α → ℚ) :
    (((List.range l.length).map fun i => (i, 0)).map fun ij : ℕ × ℕ => g (l.getD ij.1 d)) = l.map g := by
  apply List.ext_getElem
  · simp
  · intro i h1 h2
    simp at h1 h2
    simp [List.getD_eq_getElem?_getD, h1]

theorem Node.preAt32_eq {nd : Node} {s : QState} {ins : List (List ℚ)} {o : ℕ → Acc (ℕ × ℕ)} {q : QSite} {p : ℕ}
    (hw : nd.WF s) (hq : nd.site = some q) (hf : nd.Fits s ins) (ho : nd.Ordered ins.length o) (hp : p < prodL q.outShape) :
    nd.preAtF fl32 s.fbw o ins p = nd.val32 s.fbw ins p ∧ FitsVal (s.fbw (q.elem p)) (nd.val32 s.fbw ins p) := by
  have hop := ho q hq p hp
  cases nd with
  | quantize q' => cases hq; exact ⟨rfl, hf p hp⟩
  | activation k φ q' => cases hq; exact ⟨rfl, hf p hp⟩
  | passive g => cases hq
  | add q' =>
    cases hq
    obtain ⟨F, hF, hg, hs⟩ := hf p hp
    have hP := p2_pos (-F)
    have hs' : (ins.map fun x => |x.getD p 0|).sum < 2 ^ 23 * p2 (-F) := hs
    have hval : Node.val32 (.add q) s.fbw ins p = (ins.map fun x => x.getD p 0).sum := rfl
    have hm : ∀ ij ∈ Node.terms (.add q) ins.length p, ∃ x ∈ ins, ins.getD ij.1 [] = x := by
      intro ij hij
      obtain ⟨i, hi, rfl⟩ := List.mem_map.mp hij
      have hi := List.mem_range.mp hi
      exact ⟨_, List.getElem_mem hi, by simp [List.getD_eq_getElem?_getD, hi]⟩
    have hrun := C58_any_order (fun ij : ℕ × ℕ => (ins.getD ij.1 []).getD p 0) (fun _ => 1) F 0 (Node.terms (.add q) ins.length p)
      (by intro ij hij; obtain ⟨x, hx, hxe⟩ := hm ij hij; rw [hxe]; exact hg x hx) (fun _ _ => ⟨1, by simp⟩)
      (by
        have := sum_range_getD ins [] fun x => |x.getD p 0|
        simp only [mul_one]
        change (List.map _ ((List.range ins.length).map fun i => (i, 0))).sum ≤ _
        rw [this, add_zero]
        change _ ≤ 2 ^ 24 * p2 (-F)
        linarith) (o p) hop
    have hsum : ((Node.terms (.add q) ins.length p).map fun ij : ℕ × ℕ => (ins.getD ij.1 []).getD p 0 * 1).sum =
        (ins.map fun x => x.getD p 0).sum := by
      simp only [mul_one]
      exact congrArg _ (sum_range_getD ins [] fun x => x.getD p 0)
    refine ⟨hrun.trans (hsum.trans hval.symm), ?_⟩
    rw [hval]
    have hgr := grid_sum ins (fun x => x.getD p 0) (-F) hg
    have hb := abs_sum_le ins fun x => x.getD p 0
    have h24 : p2 (-F + 24) = 2 ^ 24 * p2 (-F) := by rw [p2_add, mul_comm]; congr 1
    exact ⟨isFloat32_of_grid hgr (by rw [h24]; linarith), scaled_lt (lt_of_le_of_lt hb hs') hF⟩
  | linear L =>
    cases hq
    have hwf : L.WF s := ⟨hw.shape _ rfl, hw.clip _ rfl, hw.loc L rfl⟩
    obtain ⟨fx, fw, F, h⟩ := hf p hp
    have hq := p2_pos (-tfRound (s.fbw (L.elem p)))
    obtain ⟨h1, h2, h3⟩ := preact32_eq h o hop (L.jitBiasF fl32 s.fbw) (L.jitBiasF fl32 s.fbw) rfl
      (fun hb => by unfold LinLayer.jitBiasF; rw [hb]) (jitBias32_grid hwf hp h)
      (by have := h.sum; change _ + _ + p2 _ < 2 ^ 23 * p2 _ at this; linarith)
    refine ⟨h1, ?_⟩
    have h24 : p2 (-F + 24) = 2 ^ 24 * p2 (-F) := by rw [p2_add, mul_comm]; congr 1
    have hP := p2_pos (-F)
    have := h.act _ (elemOf_lt hwf.shape hp)
    change FitsVal _ (L.preact (L.qkernelF fl32) (L.jitBiasF fl32 s.fbw) (ins.headD []) p)
    exact ⟨isFloat32_of_grid h2 (by rw [h24]; linarith), scaled_lt h3 (by unfold QSite.elem; simp only; omega)⟩

/-- value at position `p` after the quantizer -/
def Node.quantAt32 (nd : Node) (q : QSite) (fbw : ℕ → ℚ) (ins : List (List ℚ)) (p : ℕ) : ℚ :=
  evalQF fl32 q.conf.strategy (fbw (q.elem p)) (nd.val32 fbw ins p)

/-- output of a layer at inference in float32, the same for all orders when the layer fits -/
def Node.out32 (nd : Node) (fbw : ℕ → ℚ) (ins : List (List ℚ)) : List ℚ :=
  match nd.site with
  | none => nd.pre fbw ins
  | some q => (List.range (prodL q.outShape)).map fun p => nd.post (nd.quantAt32 q fbw ins p)

/-- state after a call -/
def Node.after32 (nd : Node) (s : QState) (record : Bool) (insB : List (List (List ℚ))) : QState :=
  match nd.site with
  | none => s
  | some q => if record then
      s.record q.elem (insB.map fun ins => (List.range (prodL q.outShape)).map (nd.quantAt32 q s.fbw ins)) else s

theorem Node.call32_eq {nd : Node} {s : QState} (record : Bool) (o : ℕ → ℕ → Acc (ℕ × ℕ)) (insB : List (List (List ℚ))) {n : ℕ}
    (hw : nd.WF s) (hl : ∀ ins ∈ insB, ins.length = n) (hf : ∀ ins ∈ insB, nd.Fits s ins) (ho : ∀ b, nd.Ordered n (o b)) :
    nd.callF fl32 s record o insB = (nd.after32 s record insB, insB.map (nd.out32 s.fbw)) := by
  unfold Node.callF Node.after32
  cases hs : nd.site with
  | none =>
    simp only
    congr 1
    apply List.map_congr_left
    intro ins _
    unfold Node.out32; rw [hs]
  | some q =>
    simp only
    have hclip : (fun e => q.conf.clip (s.fbw e)) = s.fbw := funext (hw.clip q hs)
    have hmap : (insB.zipIdx.map fun ib => (List.range (prodL q.outShape)).map fun p =>
        evalQF fl32 q.conf.strategy (q.conf.clip (s.fbw (q.elem p))) (nd.preAtF fl32 s.fbw (o ib.2) ib.1 p)) =
        insB.map fun ins => (List.range (prodL q.outShape)).map (nd.quantAt32 q s.fbw ins) := by
      rw [← map_zipIdx_fst (fun ins => (List.range (prodL q.outShape)).map (nd.quantAt32 q s.fbw ins)) insB 0]
      apply List.map_congr_left
      rintro ⟨ins, b⟩ hib
      have hmem : ins ∈ insB := by
        have := List.mem_zipIdx hib
        rw [this.2.2]
        exact List.getElem_mem _
      apply List.map_congr_left
      intro p hp
      have hp := List.mem_range.mp hp
      rw [hw.clip q hs, (Node.preAt32_eq hw hs (hf ins hmem) (by rw [hl ins hmem]; exact ho b) hp).1]
      rfl
    rw [hclip, hmap]
    congr 1
    rw [List.map_map]
    apply List.map_congr_left
    intro ins _
    unfold Node.out32
    rw [hs]
    simp [Function.comp]

/-- all quantized values of the node on these inputs are in the recorded ranges -/
def Node.InRange32 (nd : Node) (s : QState) (ins : List (List ℚ)) : Prop :=
  ∀ q, nd.site = some q → ∀ p < prodL q.outShape,
    s.mn (q.elem p) ≤ (nd.quantAt32 q s.fbw ins p : WithTop ℚ) ∧ (nd.quantAt32 q s.fbw ins p : WithBot ℚ) ≤ s.mx (q.elem p)

theorem Node.InRange32.ext {nd : Node} {s s' : QState} {ins : List (List ℚ)} (h : nd.InRange32 s ins) (he : Ext s s') :
    nd.InRange32 s' ins := by
  intro q hq p hp
  rw [he.fbw]
  have := h q hq p hp
  exact ⟨le_trans (he.mn _) this.1, le_trans this.2 (he.mx _)⟩

theorem Node.after32_ext (nd : Node) (s : QState) (record : Bool) (insB : List (List (List ℚ))) :
    Ext s (nd.after32 s record insB) := by
  unfold Node.after32
  cases nd.site with
  | none => exact Ext.refl s
  | some q =>
    cases record
    · exact Ext.refl s
    · exact ext_record _ _ _

theorem Node.after32_inRange (nd : Node) (s : QState) (insB : List (List (List ℚ))) {ins : List (List ℚ)}
    (h : ins ∈ insB) : nd.InRange32 (nd.after32 s true insB) ins := by
  intro q hq p hp
  rw [(nd.after32_ext s true insB).fbw]
  have hmem : (q.elem p, nd.quantAt32 q s.fbw ins p) ∈
      batchPairs q.elem (insB.map fun ins => (List.range (prodL q.outShape)).map (nd.quantAt32 q s.fbw ins)) := by
    apply mem_batchPairs.mpr
    refine ⟨_, List.mem_map.mpr ⟨ins, h, rfl⟩, p, ?_, rfl⟩
    rw [List.getElem?_map, List.getElem?_range hp]
    rfl
  have e : nd.after32 s true insB =
      s.record q.elem (insB.map fun ins => (List.range (prodL q.outShape)).map (nd.quantAt32 q s.fbw ins)) := by
    unfold Node.after32; rw [hq]; rfl
  rw [e]
  exact ⟨le_trans (min_le_left _ _) (reduceMin_le hmem), le_trans (le_reduceMax hmem) (le_max_left _ _)⟩

/-- quantized values lie on the grid -/
theorem Node.quantAt32_grid {nd : Node} {s : QState} {ins : List (List ℚ)} {q : QSite} {p : ℕ} {o : ℕ → Acc (ℕ × ℕ)}
    (hw : nd.WF s) (hq : nd.site = some q) (hf : nd.Fits s ins) (ho : nd.Ordered ins.length o) (hp : p < prodL q.outShape) :
    ∃ n : ℤ, nd.quantAt32 q s.fbw ins p = n * p2 (-tfRound (s.fbw (q.elem p))) := by
  obtain ⟨h1, h2⟩ := (Node.preAt32_eq hw hq hf ho hp).2
  exact ⟨_, evalQ32_rnd _ h1 h2⟩

theorem Node.after32_grid {nd : Node} {s : QState} (record : Bool) {insB : List (List (List ℚ))} {n : ℕ} {o : ℕ → Acc (ℕ × ℕ)}
    (hw : nd.WF s) (hl : ∀ ins ∈ insB, ins.length = n) (hf : ∀ ins ∈ insB, nd.Fits s ins) (ho : nd.Ordered n o)
    (h : GridState s) : GridState (nd.after32 s record insB) := by
  unfold Node.after32
  cases hs : nd.site with
  | none => exact h
  | some q =>
    cases record
    · exact h
    simp only [if_true]
    have key : ∀ e v, (e, v) ∈ batchPairs q.elem (insB.map fun ins => (List.range (prodL q.outShape)).map (nd.quantAt32 q s.fbw ins)) →
        ∃ n : ℤ, v = n * p2 (-tfRound (s.fbw e)) := by
      intro e v hv
      obtain ⟨y, hy, p, h1, h2⟩ := mem_batchPairs.mp hv
      obtain ⟨ins, hi, rfl⟩ := List.mem_map.mp hy
      rw [List.getElem?_map, Option.map_eq_some_iff] at h1
      obtain ⟨p', hp', h1⟩ := h1
      have hlt : p < prodL q.outShape := by
        by_contra hc
        rw [List.getElem?_eq_none (by simpa using hc)] at hp'
        cases hp'
      rw [List.getElem?_range hlt] at hp'
      cases hp'
      rw [← h1, ← h2]
      exact Node.quantAt32_grid hw hs (hf ins hi) (by rw [hl ins hi]; exact ho) hlt
    intro e
    constructor
    · intro v hv
      change min (reduceMin e _) (s.mn e) = _ at hv
      rcases min_choice (reduceMin e (batchPairs q.elem
        (insB.map fun ins => (List.range (prodL q.outShape)).map (nd.quantAt32 q s.fbw ins)))) (s.mn e) with h' | h'
      · rw [h'] at hv; exact key e v (reduceMin_mem hv)
      · rw [h'] at hv; exact (h e).1 v hv
    · intro v hv
      change max (reduceMax e _) (s.mx e) = _ at hv
      rcases max_choice (reduceMax e (batchPairs q.elem
        (insB.map fun ins => (List.range (prodL q.outShape)).map (nd.quantAt32 q s.fbw ins)))) (s.mx e) with h' | h'
      · rw [h'] at hv; exact key e v (reduceMax_mem hv)
      · rw [h'] at hv; exact (h e).2 v hv

/-! ### networks -/

/-- all tensors computed at inference for one sample -/
def Net.evalEnv32 : Net → List (ℕ → ℚ) → List (List ℚ) → List (List ℚ)
  | (nd, ins) :: rest, f :: fs, env => Net.evalEnv32 rest fs (env ++ [nd.out32 f (gather env ins)])
  | _, _, env => env

/-- on this sample the computation of every layer fits (`Node.Fits`) -/
def Net.Fits : Net → List QState → List (List ℚ) → Prop
  | [], _, _ => True
  | (nd, ins) :: rest, s :: ss, env =>
    nd.Fits s (gather env ins) ∧ Net.Fits rest ss (env ++ [nd.out32 s.fbw (gather env ins)])
  | _ :: _, [], _ => False

/-- on this sample all quantized values are in the recorded ranges -/
def Net.InRange32 : Net → List QState → List (List ℚ) → Prop
  | [], _, _ => True
  | (nd, ins) :: rest, s :: ss, env =>
    nd.InRange32 s (gather env ins) ∧ Net.InRange32 rest ss (env ++ [nd.out32 s.fbw (gather env ins)])
  | _ :: _, [], _ => False

/-- the orders of a run accumulate the terms of every layer, each once, for every sample -/
def Net.Ordered : Net → Orders → Prop
  | [], _ => True
  | (nd, ins) :: rest, o => (∀ b, nd.Ordered ins.length (o 0 b)) ∧ Net.Ordered rest fun n => o (n + 1)

theorem Net.Fits.congr : ∀ {net : Net} {ss ss' : List QState} {env : List (List ℚ)}, net.Fits ss env →
    ss'.map QState.fbw = ss.map QState.fbw → net.Fits ss' env
  | [], _, _, _, _, _ => trivial
  | (nd, ins) :: rest, s :: ss, s' :: ss', env, h, he => by
    simp only [List.map_cons, List.cons.injEq] at he
    refine ⟨h.1.congr he.1, ?_⟩
    rw [he.1]
    exact Net.Fits.congr h.2 he.2
  | _ :: _, [], _, _, h, _ => h.elim
  | _ :: _, _ :: _, [], _, _, he => by simp at he

theorem Net.InRange32.ext : ∀ {net : Net} {ss ss' : List QState} {env : List (List ℚ)}, net.InRange32 ss env → ExtL ss ss' →
    net.InRange32 ss' env
  | [], _, _, _, _, _ => trivial
  | (nd, ins) :: rest, s :: ss, s' :: ss', env, h, .cons he hes => by
    refine ⟨h.1.ext he, ?_⟩
    have := Net.InRange32.ext h.2 hes
    rwa [← he.fbw] at this
  | _ :: _, [], _, _, h, _ => h.elim

/-- one batch through the network -/
theorem Net.call32_spec (record : Bool) : ∀ (net : Net) (ss : List QState) (o : Orders) (envs : List (List (List ℚ))),
    net.All Node.WF ss → net.Ordered o → (∀ env ∈ envs, net.Fits ss env) →
    ∃ ss', net.callF fl32 record ss o envs = .ok (ss', envs.map (net.evalEnv32 (ss.map QState.fbw))) ∧ ExtL ss ss' ∧
      (record = true → ∀ env ∈ envs, net.InRange32 ss' env) ∧
      (net.All (fun _ s => GridState s) ss → net.All (fun _ s => GridState s) ss')
  | [], [], _, envs, _, _, _ => by
    refine ⟨[], ?_, .nil, fun _ _ _ => trivial, fun h => h⟩
    simp [Net.callF, Net.evalEnv32]
  | (nd, ins) :: rest, s :: ss, o, envs, h, ho, hf => by
    have hl : ∀ i ∈ envs.map (gather · ins), i.length = ins.length := by
      intro i hi
      obtain ⟨env, -, rfl⟩ := List.mem_map.mp hi
      simp [gather]
    have hfi : ∀ i ∈ envs.map (gather · ins), nd.Fits s i := by
      intro i hi
      obtain ⟨env, he, rfl⟩ := List.mem_map.mp hi
      exact (hf env he).1
    have hz : List.zipWith (fun (env : List (List ℚ)) v => env ++ [v]) envs ((envs.map (gather · ins)).map (nd.out32 s.fbw))
        = envs.map fun env => env ++ [nd.out32 s.fbw (gather env ins)] := by
      rw [List.map_map, List.zipWith_map_right]
      clear hf hl hfi
      induction envs with
      | nil => rfl
      | cons a l ih => simp
    obtain ⟨ss', h1, h2, h4, h5⟩ := Net.call32_spec record rest ss (fun n => o (n + 1))
      (envs.map fun env => env ++ [nd.out32 s.fbw (gather env ins)]) h.2 ho.2 (by
        intro e he
        obtain ⟨env, hm, rfl⟩ := List.mem_map.mp he
        exact (hf env hm).2)
    refine ⟨nd.after32 s record (envs.map (gather · ins)) :: ss', ?_, .cons (nd.after32_ext _ _ _) h2, ?_, ?_⟩
    · unfold Net.callF
      rw [Node.call32_eq record (o 0) _ h.1 hl hfi ho.1]
      simp only
      rw [hz]
      simp only [bind, Except.bind, h1, pure, Except.pure]
      congr 2
      rw [List.map_map]
      rfl
    · intro hr env henv
      refine ⟨?_, ?_⟩
      · rw [hr]; exact nd.after32_inRange s _ (List.mem_map.mpr ⟨env, henv, rfl⟩)
      · rw [(nd.after32_ext s record _).fbw]
        exact h4 hr _ (List.mem_map.mpr ⟨env, henv, rfl⟩)
    · intro hg
      exact ⟨Node.after32_grid record h.1 hl hfi (ho.1 0) hg.1, h5 hg.2⟩
  | [], _ :: _, _, _, h, _, _ => h.elim
  | _ :: _, [], _, _, h, _, _ => h.elim

theorem wf_ext (nd : Node) (s s' : QState) (h : nd.WF s) (he : Ext s s') : nd.WF s' := h.congr he.fbw

/-- the batch loop -/
theorem Net.callBatches32_spec (record : Bool) (net : Net) : ∀ (bs : List (List (List (List ℚ)))) (o : ℕ → Orders) (ss : List QState),
    net.All Node.WF ss → (∀ i, net.Ordered (o i)) → (∀ env ∈ bs.flatten, net.Fits ss env) →
    ∃ ss', net.callBatchesF fl32 record ss o bs = .ok (ss', bs.flatten.map (net.evalEnv32 (ss.map QState.fbw))) ∧ ExtL ss ss' ∧
      (record = true → ∀ env ∈ bs.flatten, net.InRange32 ss' env) ∧
      (net.All (fun _ s => GridState s) ss → net.All (fun _ s => GridState s) ss')
  | [], _, ss, h, _, _ => ⟨ss, by simp [Net.callBatchesF], ExtL.refl ss, by simp, fun h => h⟩
  | b :: bs, o, ss, h, ho, hf => by
    obtain ⟨s1, h1, h2, h4, h5⟩ := net.call32_spec record ss (o 0) b h (ho 0) fun e he => hf e (by simp [he])
    obtain ⟨s2, g1, g2, g4, g5⟩ := Net.callBatches32_spec record net bs (fun i => o (i + 1)) s1 (Net.All.ext wf_ext h h2)
      (fun i => ho (i + 1)) fun e he => (hf e (by rw [List.flatten_cons, List.mem_append]; exact .inr he)).congr h2.fbw
    refine ⟨s2, ?_, h2.trans g2, ?_, fun hg => g5 (h5 hg)⟩
    · unfold Net.callBatchesF
      simp only [h1, g1, bind, Except.bind, pure, Except.pure]
      rw [h2.fbw]
      simp
    · intro hr env henv
      rw [List.flatten_cons, List.mem_append] at henv
      rcases henv with henv | henv
      · exact (h4 hr env henv).ext g2
      · exact g4 hr env henv

/-! ### adjusted ranges -/

theorem adjust_inRange32 {nd : Node} {s : QState} (hw : nd.WF s) {ins : List (List ℚ)} (hf : nd.Fits s ins)
    (h : nd.InRange32 s ins) : nd.InRange32 (nd.adjust s) ins := by
  unfold Node.adjust
  split
  · rename_i φ q
    intro q' hq p hp
    cases hq
    have ha := (hw.act _ _ _ rfl).1 (ins.headD []) p
    obtain ⟨f1, f2⟩ := hf p hp
    have := evalQ32_between (st := q.conf.strategy) (fbw := s.fbw (q.elem p)) (a := 0) (b := 1)
      ((hw.act _ _ _ rfl).2 (by simp) _) f1 f2 (by push_cast; exact ha.1) (by push_cast; exact ha.2)
    push_cast at this
    exact ⟨WithTop.coe_le_coe.mpr this.1, WithBot.coe_le_coe.mpr this.2⟩
  · rename_i φ q
    intro q' hq p hp
    have hr := h q' hq p hp
    cases hq
    have ha := (hw.act _ _ _ rfl).1 (ins.headD []) p
    obtain ⟨f1, f2⟩ := hf p hp
    have := evalQ32_between (st := q.conf.strategy) (fbw := s.fbw (q.elem p)) (a := 0) (b := 1)
      ((hw.act _ _ _ rfl).2 (by simp) _) f1 f2 (by push_cast; exact ha.1) (by push_cast; exact ha.2)
    push_cast at this
    exact ⟨max_le hr.1 (WithTop.coe_le_coe.mpr this.1), le_min hr.2 (WithBot.coe_le_coe.mpr this.2)⟩
  · rename_i φ q
    intro q' hq p hp
    have hr := h q' hq p hp
    cases hq
    have ha := (hw.act _ _ _ rfl).1 (ins.headD []) p
    obtain ⟨f1, f2⟩ := hf p hp
    have := evalQ32_between (st := q.conf.strategy) (fbw := s.fbw (q.elem p)) (a := -1) (b := 1)
      ((hw.act _ _ _ rfl).2 (by simp) _) f1 f2 (by push_cast; exact ha.1) (by push_cast; exact ha.2)
    push_cast at this
    exact ⟨max_le hr.1 (WithTop.coe_le_coe.mpr this.1), le_min hr.2 (WithBot.coe_le_coe.mpr this.2)⟩
  · exact h

theorem adjustAll_inRange32 : ∀ {net : Net} {ss : List QState} {x : List (List ℚ)}, net.All Node.WF ss → net.Fits ss x →
    net.InRange32 ss x → net.InRange32 (adjustAll net ss) x
  | [], [], _, _, _, _ => trivial
  | (nd, ins) :: rest, s :: ss, x, h, hf, hx => by
    refine ⟨adjust_inRange32 h.1 hf.1 hx.1, ?_⟩
    rw [adjust_fbw]
    exact adjustAll_inRange32 h.2 hf.2 hx.2

/-- every element of the quantizer has recorded a range -/
theorem Node.traced_of32 {nd : Node} {s : QState} (hw : nd.WF s) (hg : GridState s) (hb : Bounded nd s)
    {ins : List (List ℚ)} (hr : nd.InRange32 s ins) : nd.AllTraced s := by
  intro q hq e he
  obtain ⟨p, hp, rfl⟩ := elemOf_surj (hw.shape q hq) he
  have h := hr q hq p hp
  change s.mn (elemOf q.outShape q.qShape p) ≤ _ ∧ _ ≤ s.mx (elemOf q.outShape q.qShape p) at h
  set e := elemOf q.outShape q.qShape p with hee
  obtain ⟨lo, hlo⟩ : ∃ lo : ℚ, s.mn e = (lo : WithTop ℚ) := by
    cases hm : s.mn e with
    | top => rw [hm] at h; exact absurd h.1 (by simp)
    | coe v => exact ⟨v, rfl⟩
  obtain ⟨hi, hhi⟩ : ∃ hi : ℚ, s.mx e = (hi : WithBot ℚ) := by
    cases hm : s.mx e with
    | bot => rw [hm] at h; exact absurd h.2 (by simp)
    | coe v => exact ⟨v, rfl⟩
  refine ⟨lo, hi, hlo, hhi, ?_, (hg e).1 lo hlo, (hg e).2 hi hhi, (hb e).1 lo hlo, (hb e).2 hi hhi, hw.fb q hq e⟩
  rw [hlo, hhi] at h
  exact le_trans (WithTop.coe_le_coe.mp h.1) (WithBot.coe_le_coe.mp h.2)

theorem traced_all32 : ∀ {net : Net} {ss : List QState}, net.All Node.WF ss →
    net.All (fun _ s => GridState s) ss → net.All Bounded ss → ∀ {x : List (List ℚ)}, net.InRange32 ss x →
    net.All Node.AllTraced ss
  | [], [], _, _, _, _, _ => trivial
  | (_, _) :: _, _ :: _, hw, hg, hb, _, hr =>
    ⟨Node.traced_of32 hw.1 hg.1 hb.1 hr.1, traced_all32 hw.2 hg.2 hb.2 hr.2⟩

/-! ### the proxy -/

/-- The types generated for a layer have at most 22 bits, those of the quantizer in front of a relu at most 21. -/
def Node.TypesFit (nd : Node) (s : QState) : Prop :=
  match nd with
  | .linear L => (∀ p < prodL L.outShape, (L.bitsAt s L.reluAct p).k + (L.bitsAt s L.reluAct p).i + (L.bitsAt s L.reluAct p).f ≤ 22) ∧
      (L.reluAct = true → (L.reluKif s).k + (L.reluKif s).i + (L.reluKif s).f ≤ 21)
  | .quantize q | .activation _ _ q | .add q =>
      ∀ p < prodL q.outShape, (q.bitsAt s p).k + (q.bitsAt s p).i + (q.bitsAt s p).f ≤ 22
  | .passive _ => True

theorem Node.toProxy32_ok {nd : Node} {s : QState} (ht : nd.AllTraced s) (S : Sat) :
    ∃ f, nd.toProxyF fl32 s S = .ok f ∧ ∀ o ins, f o ins = match nd.site with
      | none => nd.pre s.fbw ins
      | some q => (List.range (prodL q.outShape)).map (nd.proxyAtF fl32 s S o ins) := by
  unfold Node.toProxyF
  cases hs : nd.site with
  | none => exact ⟨_, rfl, fun _ _ => rfl⟩
  | some q =>
    have : (List.range (prodL q.qShape)).all (fun e => rangeOk (s.mn e) (s.mx e)) = true := by
      rw [List.all_eq_true]
      intro e he
      obtain ⟨lo, hi, h⟩ := ht q hs e (List.mem_range.mp he)
      rw [h.mn, h.mx]
      change decide (0 ≤ hi - lo) = true
      have := h.le
      simpa using this
    simp only [QState.getBitsExact, this, if_true]
    exact ⟨_, rfl, fun _ _ => rfl⟩

theorem Node.proxy32_eq {nd : Node} {s : QState} (hw : nd.WF s) (ht : nd.AllTraced s) (aggressive : Bool)
    {f : (ℕ → Acc (ℕ × ℕ)) → List (List ℚ) → List ℚ} (hf : nd.toProxyF fl32 s (proxySat aggressive) = .ok f)
    (hty : nd.TypesFit s) {o : ℕ → Acc (ℕ × ℕ)} {ins : List (List ℚ)} (ho : nd.Ordered ins.length o) (hfit : nd.Fits s ins)
    (hr : nd.InRange32 s ins) : f o ins = nd.out32 s.fbw ins := by
  obtain ⟨f', hf', h⟩ := nd.toProxy32_ok ht (proxySat aggressive)
  rw [hf] at hf'
  cases hf'
  rw [h]
  unfold Node.out32
  cases hs : nd.site with
  | none => rfl
  | some q =>
    simp only
    apply List.map_congr_left
    intro p hp
    have hp := List.mem_range.mp hp
    have hin := hr q hs p hp
    obtain ⟨lo, hi, htr⟩ := ht q hs (q.elem p) (elemOf_lt (hw.shape q hs) hp)
    rw [htr.mn, htr.mx] at hin
    have h1 := WithTop.coe_le_coe.mp hin.1
    have h2 := WithBot.coe_le_coe.mp hin.2
    obtain ⟨hv, hv1, hv2⟩ := Node.preAt32_eq hw hs hfit ho hp
    cases nd with
    | quantize q' =>
      cases hs
      change (proxyQ _).applyF fl32 _ _ (Node.preAtF fl32 _ _ _ _ _) = _
      rw [hv]
      exact site_proxy32 q s aggressive _ p lo hi htr hv1 hv2 (hty p hp) h1 h2
    | activation kind φ q' =>
      cases hs
      change (proxyQ _).applyF fl32 _ _ (Node.preAtF fl32 _ _ _ _ _) = _
      rw [hv]
      exact site_proxy32 q s aggressive _ p lo hi htr hv1 hv2 (hty p hp) h1 h2
    | add q' =>
      cases hs
      change (proxyQ _).applyF fl32 _ _ (Node.preAtF fl32 _ _ _ _ _) = _
      rw [hv]
      exact site_proxy32 q s aggressive _ p lo hi htr hv1 hv2 (hty p hp) h1 h2
    | linear L =>
      cases hs
      have hwf : L.WF s := ⟨hw.shape _ rfl, hw.clip _ rfl, hw.loc L rfl⟩
      obtain ⟨fx, fw, F, hF⟩ := hfit p hp
      have hop := ho _ rfl p hp
      have hquant : L.quantF fl32 s o (ins.headD []) p = Node.quantAt32 (.linear L) ⟨L.paq, L.outShape, L.qShape⟩ s.fbw ins p := by
        unfold LinLayer.quantF
        rw [hwf.clip]
        change evalQF fl32 _ _ (Node.preAtF fl32 (.linear L) s.fbw o ins p) = _
        rw [hv]
        rfl
      change L.proxyOutF fl32 s _ o _ p = L.post _
      rw [← hquant] at h1 h2 ⊢
      exact C78_layer_eq_proxy L s hwf aggressive (ins.headD []) p hp fx fw F hF o o hop hop (hty.1 p hp) hty.2 lo hi htr
        (fun e _ => hw.fb _ rfl e) h1 h2
    | passive g => cases hs

theorem toProxy32_total (S : Sat) : ∀ {net : Net} {ss : List QState}, net.All Node.AllTraced ss →
    ∃ pm, net.toProxyF fl32 S ss = .ok pm
  | [], [], _ => ⟨[], rfl⟩
  | (nd, ins) :: rest, s :: ss, h => by
    obtain ⟨f, hf, _⟩ := nd.toProxy32_ok h.1 S
    obtain ⟨r, hr⟩ := toProxy32_total S h.2
    exact ⟨(f, ins) :: r, by unfold Net.toProxyF; rw [hf, hr]; rfl⟩

theorem eval32_eq (aggressive : Bool) : ∀ {net : Net} {ss : List QState} {pm : PNet32}, net.All Node.WF ss →
    net.All Node.AllTraced ss → net.All Node.TypesFit ss → net.toProxyF fl32 (proxySat aggressive) ss = .ok pm →
    ∀ {o : Orders} {b : ℕ} {x : List (List ℚ)}, net.Ordered o → net.Fits ss x → net.InRange32 ss x →
    pm.eval (fun n => o n b) x = net.evalEnv32 (ss.map QState.fbw) x
  | [], [], pm, _, _, _, hp, _, _, x, _, _, _ => by cases hp; rfl
  | (nd, ins) :: rest, s :: ss, pm, hw, ht, hty, hp, o, b, x, ho, hfit, hr => by
    obtain ⟨f, hf, _⟩ := nd.toProxy32_ok ht.1 (proxySat aggressive)
    obtain ⟨r, hrr⟩ := toProxy32_total (proxySat aggressive) ht.2
    unfold Net.toProxyF at hp
    rw [hf, hrr] at hp
    cases hp
    change PNet32.eval r (fun n => o (n + 1) b) (x ++ [f (o 0 b) (gather x ins)]) =
      Net.evalEnv32 rest (ss.map QState.fbw) (x ++ [nd.out32 s.fbw (gather x ins)])
    rw [Node.proxy32_eq hw.1 ht.1 aggressive hf hty.1 (by simpa [gather] using ho.1 b) hfit.1 hr.1]
    exact eval32_eq aggressive hw.2 ht.2 hty.2 hrr ho.2 hfit.2 hr.2

theorem predict32_eq {net : Net} {ss : List QState} (h : net.All Node.WF ss) {o : Orders} (ho : net.Ordered o) {x : List (List ℚ)}
    (hf : net.Fits ss x) : net.predictF fl32 ss o x = .ok (net.evalEnv32 (ss.map QState.fbw) x) := by
  obtain ⟨ss', h1, -⟩ := net.call32_spec false ss o [x] h ho (by simpa using hf)
  unfold Net.predictF
  rw [h1]
  rfl

theorem trace32_spec (net : Net) (ss : List QState) (o : ℕ → Orders) (bsz : ℕ) (data : List (List (List ℚ))) (hw : net.All Node.WF ss)
    (ho : ∀ i, net.Ordered (o i)) (hf : ∀ x ∈ data, net.Fits ss x) (hb : 0 < bsz) :
    ∃ ss', net.traceF fl32 ss o bsz data = .ok (ss', data.map (net.evalEnv32 (ss.map QState.fbw))) ∧
      ss'.map QState.fbw = ss.map QState.fbw ∧ net.All Node.WF ss' ∧ net.All (fun _ s => GridState s) ss' ∧
      ∀ x ∈ data, net.InRange32 ss' x := by
  obtain ⟨r1, r2, r3⟩ := reset_all hw
  obtain ⟨s1, h1, h2, h4, h5⟩ := net.callBatches32_spec true (chunks bsz data) o (ss.map QState.reset) r1 ho (by
    rw [chunks_flatten bsz hb]; exact fun x hx => (hf x hx).congr r3)
  have hw1 : net.All Node.WF s1 := Net.All.ext wf_ext r1 h2
  obtain ⟨a1, a2, -, a4⟩ := adjustAll_spec hw1
  have hfb : s1.map QState.fbw = ss.map QState.fbw := by rw [h2.fbw, r3]
  rw [chunks_flatten bsz hb, r3] at h1
  rw [chunks_flatten bsz hb] at h4
  refine ⟨adjustAll net s1, ?_, ?_, a2, a4 (h5 r2), fun x hx => adjustAll_inRange32 hw1 ((hf x hx).congr hfb) (h4 rfl x hx)⟩
  · unfold Net.traceF
    rw [h1]
    rfl
  · rw [a1, hfb]

end HGQ
