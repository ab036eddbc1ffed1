import Verif.Lemmas.Conforming

/-! Networks under an arbitrary conforming rounding. -/

namespace HGQ

open Spec (IsFloat32 Conforming)

/-- `Node.Fits`, and the computation stays in the normal range: values handed to a quantizer are 0 or in the normal range before and
after scaling, and units of sums are at least `2^-90`. For layers with a kernel see `LinLayer.Fits32` and `LinLayer.Normal32`. -/
def Node.NormalFits (nd : Node) (s : QState) (ins : List (List ℚ)) : Prop :=
  match nd with
  | .quantize q => ∀ p < prodL q.outShape, FitsVal (s.fbw (q.elem p)) ((ins.headD []).getD p 0) ∧
      Scaled32 (tfRound (s.fbw (q.elem p))) ((ins.headD []).getD p 0)
  | .activation _ φ q => ∀ p < prodL q.outShape, FitsVal (s.fbw (q.elem p)) ((φ (ins.headD [])).getD p 0) ∧
      Scaled32 (tfRound (s.fbw (q.elem p))) ((φ (ins.headD [])).getD p 0)
  | .add q => ∀ p < prodL q.outShape, ∃ F : ℤ, 0 ≤ F ∧ F ≤ 90 ∧ tfRound (s.fbw (q.elem p)) + 1 ≤ F ∧
      (∀ x ∈ ins, ∃ n : ℤ, x.getD p 0 = n * (2 : ℚ) ^ (-F)) ∧
      (ins.map fun x => |x.getD p 0|).sum < 2 ^ 23 * (2 : ℚ) ^ (-F)
  | .linear L => ∀ p < prodL L.outShape, ∃ fx fw F : ℤ, L.Fits32 s (ins.headD []) p fx fw F ∧ L.Normal32 s p F
  | .passive _ => True

theorem Node.NormalFits.fits {nd : Node} {s : QState} {ins : List (List ℚ)} (h : nd.NormalFits s ins) : nd.Fits s ins := by
  cases nd with
  | quantize q => exact fun p hp => (h p hp).1
  | activation k φ q => exact fun p hp => (h p hp).1
  | add q => intro p hp; obtain ⟨F, -, -, h⟩ := h p hp; exact ⟨F, h⟩
  | linear L => intro p hp; obtain ⟨fx, fw, F, h, -⟩ := h p hp; exact ⟨fx, fw, F, h⟩
  | passive g => trivial

theorem Node.NormalFits.congr {nd : Node} {s s' : QState} {ins : List (List ℚ)} (h : nd.NormalFits s ins) (he : s'.fbw = s.fbw) :
    nd.NormalFits s' ins := by
  cases nd with
  | quantize q => intro p hp; rw [he]; exact h p hp
  | activation k φ q => intro p hp; rw [he]; exact h p hp
  | add q => intro p hp; rw [he]; exact h p hp
  | linear L =>
    intro p hp
    obtain ⟨fx, fw, F, hf, hn⟩ := h p hp
    exact ⟨fx, fw, F, ⟨hf.input, hf.weight, by rw [he]; exact hf.bias, hf.grid, by rw [he]; exact hf.act, hf.three,
      by rw [he]; exact hf.sum⟩, ⟨hn.unit, hn.weight, by rw [he]; exact hn.bias⟩⟩
  | passive g => trivial

theorem Node.preAt_conf {fl : ℚ → ℚ} (hc : Conforming fl) {nd : Node} {s : QState} {ins : List (List ℚ)} {o : ℕ → Acc (ℕ × ℕ)}
    {q : QSite} {p : ℕ} (hw : nd.WF s) (hq : nd.site = some q) (hf : nd.NormalFits s ins) (ho : nd.Ordered ins.length o)
    (hp : p < prodL q.outShape) :
    nd.preAtF fl s.fbw o ins p = nd.val32 s.fbw ins p ∧ Scaled32 (tfRound (s.fbw (q.elem p))) (nd.val32 s.fbw ins p) := by
  have hop := ho q hq p hp
  cases nd with
  | quantize q' => cases hq; exact ⟨rfl, (hf p hp).2⟩
  | activation k φ q' => cases hq; exact ⟨rfl, (hf p hp).2⟩
  | passive g => cases hq
  | add q' =>
    cases hq
    obtain ⟨F, hF0, hF90, hF, hg, hs⟩ := hf p hp
    have hP := p2_pos (-F)
    have hs' : (ins.map fun x => |x.getD p 0|).sum < 2 ^ 23 * p2 (-F) := hs
    have hval : Node.val32 (.add q) s.fbw ins p = (ins.map fun x => x.getD p 0).sum := rfl
    have hm : ∀ ij ∈ Node.terms (.add q) ins.length p, ∃ x ∈ ins, ins.getD ij.1 [] = x := by
      intro ij hij
      obtain ⟨i, hi, rfl⟩ := List.mem_map.mp hij
      have hi := List.mem_range.mp hi
      exact ⟨_, List.getElem_mem hi, by simp [List.getD_eq_getElem?_getD, hi]⟩
    have hrun := Acc.runF_exact (fl := fl) (fun ij : ℕ × ℕ => (ins.getD ij.1 []).getD p 0) (fun _ => 1) F 0
      (fun y h1 h2 => by rw [add_zero] at h1 h2; exact conf_grid hc h1 (by omega) (by omega) h2)
      (Node.terms (.add q) ins.length p)
      (by intro ij hij; obtain ⟨x, hx, hxe⟩ := hm ij hij; rw [hxe]; exact hg x hx) (fun _ _ => ⟨1, by simp⟩)
      (by
        have := sum_range_getD ins [] fun x => |x.getD p 0|
        simp only [mul_one]
        change (List.map _ ((List.range ins.length).map fun i => (i, 0))).sum ≤ _
        rw [this, add_zero]
        change _ ≤ 2 ^ 24 * p2 (-F)
        linarith) (o p) hop
    have hsum : ((Node.terms (.add q) ins.length p).map fun ij : ℕ × ℕ => (ins.getD ij.1 []).getD p 0 * 1).sum =
        (ins.map fun x => x.getD p 0).sum := by
      simp only [mul_one]
      exact congrArg _ (sum_range_getD ins [] fun x => x.getD p 0)
    refine ⟨hrun.trans (hsum.trans hval.symm), ?_⟩
    rw [hval]
    have hlow : -32 ≤ tfRound (s.fbw (q.elem p)) := tfRound_ge (by exact_mod_cast hw.fb _ rfl _)
    exact scaled32_grid (grid_sum ins (fun x => x.getD p 0) (-F) hg) hF90 hlow (by omega)
  | linear L =>
    cases hq
    have hwf : L.WF s := ⟨hw.shape _ rfl, hw.clip _ rfl, hw.loc L rfl⟩
    obtain ⟨fx, fw, F, h, hn⟩ := hf p hp
    obtain ⟨h1, h2, -⟩ := quant_conf hc hwf hp h hn (fun e _ => hw.fb _ rfl e) o hop
    exact ⟨h1, h2⟩

theorem Node.quantAt_conf {fl : ℚ → ℚ} (hc : Conforming fl) {nd : Node} {s : QState} {ins : List (List ℚ)} {o : ℕ → Acc (ℕ × ℕ)}
    {q : QSite} {p : ℕ} (hw : nd.WF s) (hq : nd.site = some q) (hf : nd.NormalFits s ins) (ho : nd.Ordered ins.length o)
    (hp : p < prodL q.outShape) :
    evalQF fl q.conf.strategy (s.fbw (q.elem p)) (nd.preAtF fl s.fbw o ins p) = nd.quantAt32 q s.fbw ins p := by
  obtain ⟨h1, h2⟩ := Node.preAt_conf hc hw hq hf ho hp
  obtain ⟨-, h3, h4⟩ := Node.preAt32_eq hw hq hf.fits ho hp
  rw [h1]
  exact evalQ_conf hc _ h3 (by change |_ * p2 _| < _ at h4; linarith) h2

theorem Node.call_conf {fl : ℚ → ℚ} (hc : Conforming fl) {nd : Node} {s : QState} (record : Bool) (o : ℕ → ℕ → Acc (ℕ × ℕ))
    (insB : List (List (List ℚ))) {n : ℕ} (hw : nd.WF s) (hl : ∀ ins ∈ insB, ins.length = n) (hf : ∀ ins ∈ insB, nd.NormalFits s ins)
    (ho : ∀ b, nd.Ordered n (o b)) : nd.callF fl s record o insB = nd.callF fl32 s record o insB := by
  unfold Node.callF
  cases hs : nd.site with
  | none => rfl
  | some q =>
    simp only
    have hmap : (insB.zipIdx.map fun ib => (List.range (prodL q.outShape)).map fun p =>
        evalQF fl q.conf.strategy (q.conf.clip (s.fbw (q.elem p))) (nd.preAtF fl s.fbw (o ib.2) ib.1 p)) =
        insB.zipIdx.map fun ib => (List.range (prodL q.outShape)).map fun p =>
        evalQF fl32 q.conf.strategy (q.conf.clip (s.fbw (q.elem p))) (nd.preAtF fl32 s.fbw (o ib.2) ib.1 p) := by
      apply List.map_congr_left
      rintro ⟨ins, b⟩ hib
      have hmem : ins ∈ insB := by
        have := List.mem_zipIdx hib
        rw [this.2.2]
        exact List.getElem_mem _
      apply List.map_congr_left
      intro p hp
      have hp := List.mem_range.mp hp
      have hop : nd.Ordered ins.length (o b) := by rw [hl ins hmem]; exact ho b
      rw [hw.clip q hs, Node.quantAt_conf hc hw hs (hf ins hmem) hop hp, (Node.preAt32_eq hw hs (hf ins hmem).fits hop hp).1]
      rfl
    rw [hmap]

/-- on this sample every layer fits and stays in the normal range (`Node.NormalFits`) -/
def Net.NormalFits : Net → List QState → List (List ℚ) → Prop
  | [], _, _ => True
  | (nd, ins) :: rest, s :: ss, env =>
    nd.NormalFits s (gather env ins) ∧ Net.NormalFits rest ss (env ++ [nd.out32 s.fbw (gather env ins)])
  | _ :: _, [], _ => False

theorem Net.NormalFits.fits : ∀ {net : Net} {ss : List QState} {env : List (List ℚ)}, net.NormalFits ss env → net.Fits ss env
  | [], _, _, _ => trivial
  | (_, _) :: _, _ :: _, _, h => ⟨h.1.fits, Net.NormalFits.fits h.2⟩
  | _ :: _, [], _, h => h.elim

theorem Net.NormalFits.congr : ∀ {net : Net} {ss ss' : List QState} {env : List (List ℚ)}, net.NormalFits ss env →
    ss'.map QState.fbw = ss.map QState.fbw → net.NormalFits ss' env
  | [], _, _, _, _, _ => trivial
  | (nd, ins) :: rest, s :: ss, s' :: ss', env, h, he => by
    simp only [List.map_cons, List.cons.injEq] at he
    refine ⟨h.1.congr he.1, ?_⟩
    rw [he.1]
    exact Net.NormalFits.congr h.2 he.2
  | _ :: _, [], _, _, h, _ => h.elim
  | _ :: _, _ :: _, [], _, _, he => by simp at he

theorem Net.call_conf {fl : ℚ → ℚ} (hc : Conforming fl) (record : Bool) : ∀ (net : Net) (ss : List QState) (o : Orders)
    (envs : List (List (List ℚ))), net.All Node.WF ss → net.Ordered o → (∀ env ∈ envs, net.NormalFits ss env) →
    net.callF fl record ss o envs = net.callF fl32 record ss o envs
  | [], _, _, envs, _, _, _ => by simp [Net.callF]
  | (nd, ins) :: rest, s :: ss, o, envs, h, ho, hf => by
    have hl : ∀ i ∈ envs.map (gather · ins), i.length = ins.length := by
      intro i hi
      obtain ⟨env, -, rfl⟩ := List.mem_map.mp hi
      simp [gather]
    have hfi : ∀ i ∈ envs.map (gather · ins), nd.NormalFits s i := by
      intro i hi
      obtain ⟨env, he, rfl⟩ := List.mem_map.mp hi
      exact (hf env he).1
    unfold Net.callF
    rw [Node.call_conf hc record (o 0) _ h.1 hl hfi ho.1,
      Node.call32_eq record (o 0) _ h.1 hl (fun i hi => (hfi i hi).fits) ho.1]
    simp only
    have hz : List.zipWith (fun (env : List (List ℚ)) v => env ++ [v]) envs ((envs.map (gather · ins)).map (nd.out32 s.fbw))
        = envs.map fun env => env ++ [nd.out32 s.fbw (gather env ins)] := by
      rw [List.map_map, List.zipWith_map_right]
      clear hf hl hfi
      induction envs with
      | nil => rfl
      | cons a l ih => simp
    rw [hz, Net.call_conf hc record rest ss (fun n => o (n + 1)) _ h.2 ho.2 (by
        intro e he
        obtain ⟨env, hm, rfl⟩ := List.mem_map.mp he
        exact (hf env hm).2)]
  | _ :: _, [], _, _, h, _, _ => h.elim

theorem Net.callBatches_conf {fl : ℚ → ℚ} (hc : Conforming fl) (record : Bool) (net : Net) :
    ∀ (bs : List (List (List (List ℚ)))) (o : ℕ → Orders) (ss : List QState), net.All Node.WF ss → (∀ i, net.Ordered (o i)) →
    (∀ env ∈ bs.flatten, net.NormalFits ss env) → net.callBatchesF fl record ss o bs = net.callBatchesF fl32 record ss o bs
  | [], _, ss, h, _, _ => by simp [Net.callBatchesF]
  | b :: bs, o, ss, h, ho, hf => by
    have hb : ∀ e ∈ b, net.NormalFits ss e := fun e he => hf e (by simp [he])
    obtain ⟨s1, h1, h2, -⟩ := net.call32_spec record ss (o 0) b h (ho 0) fun e he => (hb e he).fits
    unfold Net.callBatchesF
    rw [net.call_conf hc record ss (o 0) b h (ho 0) hb, h1]
    simp only [bind, Except.bind]
    rw [Net.callBatches_conf hc record net bs (fun i => o (i + 1)) s1 (Net.All.ext wf_ext h h2) (fun i => ho (i + 1))
      fun e he => (hf e (by rw [List.flatten_cons, List.mem_append]; exact .inr he)).congr h2.fbw]

theorem trace_conf {fl : ℚ → ℚ} (hc : Conforming fl) (net : Net) (ss : List QState) (o : ℕ → Orders) (bsz : ℕ)
    (data : List (List (List ℚ))) (hw : net.All Node.WF ss) (ho : ∀ i, net.Ordered (o i)) (hf : ∀ x ∈ data, net.NormalFits ss x)
    (hb : 0 < bsz) : net.traceF fl ss o bsz data = net.traceF fl32 ss o bsz data := by
  obtain ⟨r1, -, r3⟩ := reset_all hw
  unfold Net.traceF
  rw [net.callBatches_conf hc true (chunks bsz data) o _ r1 ho]
  rw [chunks_flatten bsz hb]
  exact fun x hx => (hf x hx).congr r3

theorem predict_conf {fl : ℚ → ℚ} (hc : Conforming fl) {net : Net} {ss : List QState} (h : net.All Node.WF ss) {o : Orders}
    (ho : net.Ordered o) {x : List (List ℚ)} (hf : net.NormalFits ss x) : net.predictF fl ss o x = net.predictF fl32 ss o x := by
  unfold Net.predictF
  rw [net.call_conf hc false ss o [x] h ho (by simpa using hf)]

/-! ### the result does not depend on the accumulation orders -/

theorem Net.call32_order (record : Bool) : ∀ (net : Net) (ss : List QState) (o o' : Orders)
    (envs : List (List (List ℚ))), net.All Node.WF ss → net.Ordered o → net.Ordered o' → (∀ env ∈ envs, net.Fits ss env) →
    net.callF fl32 record ss o envs = net.callF fl32 record ss o' envs
  | [], _, _, _, envs, _, _, _, _ => by simp [Net.callF]
  | (nd, ins) :: rest, s :: ss, o, o', envs, h, ho, ho', hf => by
    have hl : ∀ i ∈ envs.map (gather · ins), i.length = ins.length := by
      intro i hi
      obtain ⟨env, -, rfl⟩ := List.mem_map.mp hi
      simp [gather]
    have hfi : ∀ i ∈ envs.map (gather · ins), nd.Fits s i := by
      intro i hi
      obtain ⟨env, he, rfl⟩ := List.mem_map.mp hi
      exact (hf env he).1
    unfold Net.callF
    rw [Node.call32_eq record (o 0) _ h.1 hl hfi ho.1, Node.call32_eq record (o' 0) _ h.1 hl hfi ho'.1]
    simp only
    have hz : List.zipWith (fun (env : List (List ℚ)) v => env ++ [v]) envs ((envs.map (gather · ins)).map (nd.out32 s.fbw))
        = envs.map fun env => env ++ [nd.out32 s.fbw (gather env ins)] := by
      rw [List.map_map, List.zipWith_map_right]
      clear hf hl hfi
      induction envs with
      | nil => rfl
      | cons a l ih => simp
    rw [hz, Net.call32_order record rest ss (fun n => o (n + 1)) (fun n => o' (n + 1)) _ h.2 ho.2 ho'.2 (by
        intro e he
        obtain ⟨env, hm, rfl⟩ := List.mem_map.mp he
        exact (hf env hm).2)]
  | _ :: _, [], _, _, _, h, _, _, _ => h.elim

theorem Net.callBatches32_order (record : Bool) (net : Net) :
    ∀ (bs : List (List (List (List ℚ)))) (o o' : ℕ → Orders) (ss : List QState), net.All Node.WF ss → (∀ i, net.Ordered (o i)) →
    (∀ i, net.Ordered (o' i)) → (∀ env ∈ bs.flatten, net.Fits ss env) →
    net.callBatchesF fl32 record ss o bs = net.callBatchesF fl32 record ss o' bs
  | [], _, _, ss, h, _, _, _ => by simp [Net.callBatchesF]
  | b :: bs, o, o', ss, h, ho, ho', hf => by
    have hb : ∀ e ∈ b, net.Fits ss e := fun e he => hf e (by simp [he])
    obtain ⟨s1, h1, h2, -⟩ := net.call32_spec record ss (o' 0) b h (ho' 0) hb
    unfold Net.callBatchesF
    rw [net.call32_order record ss (o 0) (o' 0) b h (ho 0) (ho' 0) hb, h1]
    simp only [bind, Except.bind]
    rw [Net.callBatches32_order record net bs (fun i => o (i + 1)) (fun i => o' (i + 1)) s1 (Net.All.ext wf_ext h h2)
      (fun i => ho (i + 1)) (fun i => ho' (i + 1))
      fun e he => (hf e (by rw [List.flatten_cons, List.mem_append]; exact .inr he)).congr h2.fbw]

theorem trace32_order (net : Net) (ss : List QState) (o o' : ℕ → Orders) (bsz : ℕ)
    (data : List (List (List ℚ))) (hw : net.All Node.WF ss) (ho : ∀ i, net.Ordered (o i)) (ho' : ∀ i, net.Ordered (o' i))
    (hf : ∀ x ∈ data, net.Fits ss x) (hb : 0 < bsz) : net.traceF fl32 ss o bsz data = net.traceF fl32 ss o' bsz data := by
  obtain ⟨r1, -, r3⟩ := reset_all hw
  unfold Net.traceF
  rw [net.callBatches32_order true (chunks bsz data) o o' _ r1 ho ho']
  rw [chunks_flatten bsz hb]
  exact fun x hx => (hf x hx).congr r3

/-! ### the proxy -/

theorem Node.toProxyF_ok {fl : ℚ → ℚ} {nd : Node} {s : QState} (ht : nd.AllTraced s) (S : Sat) :
    ∃ f, nd.toProxyF fl s S = .ok f ∧ ∀ o ins, f o ins = match nd.site with
      | none => nd.pre s.fbw ins
      | some q => (List.range (prodL q.outShape)).map (nd.proxyAtF fl s S o ins) := by
  unfold Node.toProxyF
  cases hs : nd.site with
  | none => exact ⟨_, rfl, fun _ _ => rfl⟩
  | some q =>
    have : (List.range (prodL q.qShape)).all (fun e => rangeOk (s.mn e) (s.mx e)) = true := by
      rw [List.all_eq_true]
      intro e he
      obtain ⟨lo, hi, h⟩ := ht q hs e (List.mem_range.mp he)
      rw [h.mn, h.mx]
      change decide (0 ≤ hi - lo) = true
      have := h.le
      simpa using this
    simp only [QState.getBitsExact, this, if_true]
    exact ⟨_, rfl, fun _ _ => rfl⟩

theorem toProxyF_total {fl : ℚ → ℚ} (S : Sat) : ∀ {net : Net} {ss : List QState}, net.All Node.AllTraced ss →
    ∃ pm, net.toProxyF fl S ss = .ok pm
  | [], [], _ => ⟨[], rfl⟩
  | (nd, ins) :: rest, s :: ss, h => by
    obtain ⟨f, hf, _⟩ := nd.toProxyF_ok (fl := fl) h.1 S
    obtain ⟨r, hr⟩ := toProxyF_total (fl := fl) S h.2
    exact ⟨(f, ins) :: r, by unfold Net.toProxyF; rw [hf, hr]; rfl⟩

/-- a quantizer of a proxy under a conforming rounding -/
theorem site_conf {fl : ℚ → ℚ} (hc : Conforming fl) (q : QSite) (s : QState) (S : Sat) (x : ℚ) (p : ℕ) (R : Rnd)
    (hrnd : -32 ≤ tfRound (s.fbw (q.elem p))) (hx : FitsVal (s.fbw (q.elem p)) x) (hn : Scaled32 (tfRound (s.fbw (q.elem p))) x)
    (hbits : (q.bitsAt s p).k + (q.bitsAt s p).i + (q.bitsAt s p).f ≤ 22) :
    (proxyQ (q.bitsAt s p)).applyF fl R S x = (proxyQ (q.bitsAt s p)).applyF fl32 R S x := by
  change (KBI.init _ _ _).applyF fl _ _ _ = (KBI.init _ _ _).applyF fl32 _ _ _
  rw [init_applyF hc, init_apply32]
  have hwf := bitsExact_wf ((s.mn (q.elem p)).untopD 0) ((s.mx (q.elem p)).unbotD 0) (s.fbw (q.elem p)) false hrnd
  change (_ ∧ _ ∧ _) at hwf
  rcases hwf.2.2 with h | h
  · have hff : (q.bitsAt s p).f = tfRound (s.fbw (q.elem p)) := h
    refine gfixed_conf hc _ _ hx.1 hwf.1 hwf.2.1 hbits ?_ ?_ <;> rw [add_sub_cancel_left, hff]
    · exact hx.2
    · exact hn
  · have hz : q.bitsAt s p = ⟨0, 0, 0⟩ := h
    rw [hz]
    change gfixedQuantizerF fl _ _ (0 + 0 + 0) _ _ _ = gfixedQuantizerF fl32 _ _ (0 + 0 + 0) _ _ _
    rw [show (0 : ℤ) + 0 + 0 = 0 from rfl, gfixed_conf_zero hc, gfixed32_zero_bits]

theorem Node.proxyAt_conf {fl : ℚ → ℚ} (hc : Conforming fl) {nd : Node} {s : QState} (hw : nd.WF s) (ht : nd.AllTraced s)
    (aggressive : Bool) (hty : nd.TypesFit s) {o : ℕ → Acc (ℕ × ℕ)} {ins : List (List ℚ)} (ho : nd.Ordered ins.length o)
    (hfit : nd.NormalFits s ins) (hr : nd.InRange32 s ins) {q : QSite} (hs : nd.site = some q) {p : ℕ} (hp : p < prodL q.outShape) :
    nd.proxyAtF fl s (proxySat aggressive) o ins p = nd.proxyAtF fl32 s (proxySat aggressive) o ins p := by
  have hin := hr q hs p hp
  obtain ⟨lo, hi, htr⟩ := ht q hs (q.elem p) (elemOf_lt (hw.shape q hs) hp)
  rw [htr.mn, htr.mx] at hin
  have h1 := WithTop.coe_le_coe.mp hin.1
  have h2 := WithBot.coe_le_coe.mp hin.2
  obtain ⟨hv, hv1⟩ := Node.preAt32_eq hw hs hfit.fits ho hp
  obtain ⟨hc1, hc2⟩ := Node.preAt_conf hc hw hs hfit ho hp
  have hrnd : -32 ≤ tfRound (s.fbw (q.elem p)) := tfRound_ge (by exact_mod_cast htr.fb)
  cases nd with
  | quantize q' =>
    cases hs
    change (proxyQ _).applyF fl _ _ (Node.preAtF fl _ _ _ _ _) = (proxyQ _).applyF fl32 _ _ (Node.preAtF fl32 _ _ _ _ _)
    rw [hv, hc1]
    exact site_conf hc q s _ _ p _ hrnd hv1 hc2 (hty p hp)
  | activation kind φ q' =>
    cases hs
    change (proxyQ _).applyF fl _ _ (Node.preAtF fl _ _ _ _ _) = (proxyQ _).applyF fl32 _ _ (Node.preAtF fl32 _ _ _ _ _)
    rw [hv, hc1]
    exact site_conf hc q s _ _ p _ hrnd hv1 hc2 (hty p hp)
  | add q' =>
    cases hs
    change (proxyQ _).applyF fl _ _ (Node.preAtF fl _ _ _ _ _) = (proxyQ _).applyF fl32 _ _ (Node.preAtF fl32 _ _ _ _ _)
    rw [hv, hc1]
    exact site_conf hc q s _ _ p _ hrnd hv1 hc2 (hty p hp)
  | linear L =>
    cases hs
    have hwf : L.WF s := ⟨hw.shape _ rfl, hw.clip _ rfl, hw.loc L rfl⟩
    obtain ⟨fx, fw, F, hF, hN⟩ := hfit p hp
    have hop := ho _ rfl p hp
    have hquant : L.quantF fl32 s o (ins.headD []) p = Node.quantAt32 (.linear L) ⟨L.paq, L.outShape, L.qShape⟩ s.fbw ins p := by
      unfold LinLayer.quantF
      rw [hwf.clip]
      change evalQF fl32 _ _ (Node.preAtF fl32 (.linear L) s.fbw o ins p) = _
      rw [hv]
      rfl
    rw [← hquant] at h1 h2
    exact proxyOut_conf hc hwf aggressive hp hF hN o hop (hty.1 p hp) hty.2 lo hi htr (fun e _ => hw.fb _ rfl e) h1 h2
  | passive g => cases hs

theorem Node.proxy_conf {fl : ℚ → ℚ} (hc : Conforming fl) {nd : Node} {s : QState} (hw : nd.WF s) (ht : nd.AllTraced s)
    (aggressive : Bool) {f : (ℕ → Acc (ℕ × ℕ)) → List (List ℚ) → List ℚ} (hf : nd.toProxyF fl s (proxySat aggressive) = .ok f)
    (hty : nd.TypesFit s) {o : ℕ → Acc (ℕ × ℕ)} {ins : List (List ℚ)} (ho : nd.Ordered ins.length o) (hfit : nd.NormalFits s ins)
    (hr : nd.InRange32 s ins) : f o ins = nd.out32 s.fbw ins := by
  obtain ⟨f', hf', h⟩ := nd.toProxyF_ok (fl := fl) ht (proxySat aggressive)
  rw [hf] at hf'
  cases hf'
  obtain ⟨g, hg, hg'⟩ := nd.toProxyF_ok (fl := fl32) ht (proxySat aggressive)
  rw [← Node.proxy32_eq hw ht aggressive hg hty ho hfit.fits hr, h, hg']
  cases hs : nd.site with
  | none => rfl
  | some q =>
    simp only
    exact List.map_congr_left fun p hp => Node.proxyAt_conf hc hw ht aggressive hty ho hfit hr hs (List.mem_range.mp hp)

theorem eval_conf {fl : ℚ → ℚ} (hc : Conforming fl) (aggressive : Bool) : ∀ {net : Net} {ss : List QState} {pm : PNet32},
    net.All Node.WF ss → net.All Node.AllTraced ss → net.All Node.TypesFit ss → net.toProxyF fl (proxySat aggressive) ss = .ok pm →
    ∀ {o : Orders} {b : ℕ} {x : List (List ℚ)}, net.Ordered o → net.NormalFits ss x → net.InRange32 ss x →
    pm.eval (fun n => o n b) x = net.evalEnv32 (ss.map QState.fbw) x
  | [], [], pm, _, _, _, hp, _, _, x, _, _, _ => by cases hp; rfl
  | (nd, ins) :: rest, s :: ss, pm, hw, ht, hty, hp, o, b, x, ho, hfit, hr => by
    obtain ⟨f, hf, _⟩ := nd.toProxyF_ok (fl := fl) ht.1 (proxySat aggressive)
    obtain ⟨r, hrr⟩ := toProxyF_total (fl := fl) (proxySat aggressive) ht.2
    unfold Net.toProxyF at hp
    rw [hf, hrr] at hp
    cases hp
    change PNet32.eval r (fun n => o (n + 1) b) (x ++ [f (o 0 b) (gather x ins)]) =
      Net.evalEnv32 rest (ss.map QState.fbw) (x ++ [nd.out32 s.fbw (gather x ins)])
    rw [Node.proxy_conf hc hw.1 ht.1 aggressive hf hty.1 (by simpa [gather] using ho.1 b) hfit.1 hr.1]
    exact eval_conf hc aggressive hw.2 ht.2 hty.2 hrr ho.2 hfit.2 hr.2

end HGQ
