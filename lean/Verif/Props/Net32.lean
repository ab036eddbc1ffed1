import Verif.Lemmas.Net32

/-!
C98: whole models evaluated in float32 equal their proxies evaluated in float32.

`net.traceF fl32 ss o bsz data` is `trace_minmax` with every operation rounded to float32, batch `i` accumulating sums in the orders `o i`;
`net.predictF fl32 ss o x` is inference and `pm.eval o x` the proxy. `net.Ordered o`: the orders `o` add up the terms of every layer, each
once, in whatever order. `net.Fits ss x`: on the sample `x` the numbers reaching every layer are small enough (`Node.Fits`).
-/

namespace HGQ
open Spec

/-- **C98**: any feed-forward graph of layers, any calibration data, batch size and accumulation orders. If the magnitudes fit on the
calibration data, `trace_minmax` in float32 succeeds without changing bitwidths. If moreover the recorded ranges are below `2^32` and the
generated types have at most 22 bits, `to_proxy_model` succeeds, and on every calibration sample the proxy, evaluated in float32 in any
order, returns bit for bit the tensors of the model, evaluated in float32 in any other order, which are those returned by `trace_minmax`. -/
theorem C98_bit_accurate (net : Net) (ss : List QState) (o : ℕ → Orders) (bsz : ℕ) (data : List (List (List ℚ))) (aggressive : Bool)
    (hw : net.All Node.WF ss) (ho : ∀ i, net.Ordered (o i)) (hfit : ∀ x ∈ data, net.Fits ss x) (hbsz : 0 < bsz) (hne : data ≠ []) :
    ∃ ss' preds, net.traceF fl32 ss o bsz data = .ok (ss', preds) ∧ ss'.map QState.fbw = ss.map QState.fbw ∧
      (net.All Bounded ss' → net.All Node.TypesFit ss' →
        ∃ pm, net.toProxyF fl32 (proxySat aggressive) ss' = .ok pm ∧
          (∀ (o' : Orders) (b : ℕ), net.Ordered o' → preds = data.map (pm.eval fun n => o' n b)) ∧
          ∀ x ∈ data, ∀ (o' o'' : Orders) (b : ℕ), net.Ordered o' → net.Ordered o'' →
            net.predictF fl32 ss' o'' x = .ok (pm.eval (fun n => o' n b) x)) := by
  obtain ⟨ss', h1, h2, h3, h4, h5⟩ := trace32_spec net ss o bsz data hw ho hfit hbsz
  refine ⟨ss', _, h1, h2, fun hbd hty => ?_⟩
  obtain ⟨x0, hx0⟩ := List.exists_mem_of_ne_nil data hne
  have ht : net.All Node.AllTraced ss' := traced_all32 h3 h4 hbd (h5 x0 hx0)
  obtain ⟨pm, hpm⟩ := toProxy32_total (proxySat aggressive) ht
  have hev : ∀ x ∈ data, ∀ (o' : Orders) (b : ℕ), net.Ordered o' →
      pm.eval (fun n => o' n b) x = net.evalEnv32 (ss.map QState.fbw) x := by
    intro x hx o' b ho'
    rw [eval32_eq aggressive h3 ht hty hpm ho' ((hfit x hx).congr h2) (h5 x hx), h2]
  refine ⟨pm, hpm, fun o' b ho' => ?_, fun x hx o' o'' b ho' ho'' => ?_⟩
  · exact List.map_congr_left fun x hx => (hev x hx o' b ho').symm
  · rw [hev x hx o' b ho', predict32_eq h3 ho'' ((hfit x hx).congr h2), h2]

/-- **C98**, any input: if all quantizers have recorded a range and the generated types have at most 22 bits, on every input on which
the magnitudes fit and the quantized values stay in the recorded ranges the float32 proxy returns the tensors of the float32 model. -/
theorem C98_in_range (net : Net) (ss : List QState) (aggressive : Bool) (hw : net.All Node.WF ss) (ht : net.All Node.AllTraced ss)
    (hty : net.All Node.TypesFit ss) :
    ∃ pm, net.toProxyF fl32 (proxySat aggressive) ss = .ok pm ∧
      ∀ (x : List (List ℚ)) (o o' : Orders) (b : ℕ), net.Ordered o → net.Ordered o' → net.Fits ss x → net.InRange32 ss x →
        net.predictF fl32 ss o x = .ok (pm.eval (fun n => o' n b) x) := by
  obtain ⟨pm, hpm⟩ := toProxy32_total (proxySat aggressive) ht
  refine ⟨pm, hpm, fun x o o' b ho ho' hf hx => ?_⟩
  rw [eval32_eq aggressive hw ht hty hpm ho' hf hx, predict32_eq hw ho hf]

/-! ### float32 and exact arithmetic -/

/-- No number to be rounded to the nearest is the largest float32 number below half a unit (`C57_round_just_below_half`). -/
def Node.NoHalf (nd : Node) (s : QState) (ins : List (List ℚ)) : Prop :=
  match nd with
  | .quantize q => ∀ p < prodL q.outShape, (ins.headD []).getD p 0 * (2 : ℚ) ^ tfRound (s.fbw (q.elem p)) ≠ 1 / 2 - 1 / 2 ^ 25
  | .activation _ φ q =>
    ∀ p < prodL q.outShape, (φ (ins.headD [])).getD p 0 * (2 : ℚ) ^ tfRound (s.fbw (q.elem p)) ≠ 1 / 2 - 1 / 2 ^ 25
  | .linear L => ∀ p < prodL L.outShape,
    (∀ ij ∈ L.taps p, L.kernel ij.2 * (2 : ℚ) ^ tfRound (L.kq.clip (L.kfbw ij.2)) ≠ 1 / 2 - 1 / 2 ^ 25) ∧
    ∀ b, L.bias = some b →
      b (L.chan p) * (2 : ℚ) ^ tfRound (maxFbw s.fbw (redElems L.qShape L.chLoc (L.chan p))) ≠ 1 / 2 - 1 / 2 ^ 25
  | _ => True

theorem Node.NoHalf.congr {nd : Node} {s s' : QState} {ins : List (List ℚ)} (h : nd.NoHalf s ins) (he : s'.fbw = s.fbw) :
    nd.NoHalf s' ins := by
  cases nd <;> simp only [Node.NoHalf, he] at h ⊢ <;> exact h

/-- On this sample, as computed in exact arithmetic, the magnitudes fit and no number is just below half a unit. -/
def Net.FitsExact : Net → List QState → List (List ℚ) → Prop
  | [], _, _ => True
  | (nd, ins) :: rest, s :: ss, env => (nd.Fits s (gather env ins) ∧ nd.NoHalf s (gather env ins)) ∧
    Net.FitsExact rest ss (env ++ [nd.out s.fbw (gather env ins)])
  | _ :: _, [], _ => False

theorem Net.FitsExact.congr : ∀ {net : Net} {ss ss' : List QState} {env : List (List ℚ)}, net.FitsExact ss env →
    ss'.map QState.fbw = ss.map QState.fbw → net.FitsExact ss' env
  | [], _, _, _, _, _ => trivial
  | (nd, ins) :: rest, s :: ss, s' :: ss', env, h, he => by
    simp only [List.map_cons, List.cons.injEq] at he
    refine ⟨⟨h.1.1.congr he.1, h.1.2.congr he.1⟩, ?_⟩
    rw [he.1]
    exact Net.FitsExact.congr h.2 he.2
  | _ :: _, [], _, _, h, _ => h.elim
  | _ :: _, _ :: _, [], _, _, he => by simp at he

theorem evalQ32_exact (st : ℤ) {fbw x : ℚ} (h : FitsVal fbw x) (hh : x * (2 : ℚ) ^ tfRound fbw ≠ 1 / 2 - 1 / 2 ^ 25) :
    evalQF fl32 st fbw x = evalQ st fbw x := by
  by_cases h3 : st = 3
  · rw [h3]; exact C57_floor fbw x h.1
  · exact C57_round_partial st h3 fbw x h.1 (by have := h.2; linarith) hh

theorem Node.quantAt32_exact {nd : Node} {s : QState} {ins : List (List ℚ)} {q : QSite} {p : ℕ} {o : ℕ → Acc (ℕ × ℕ)} (hw : nd.WF s)
    (hq : nd.site = some q) (hf : nd.Fits s ins) (hh : nd.NoHalf s ins) (ho : nd.Ordered ins.length o) (hp : p < prodL q.outShape) :
    nd.quantAt32 q s.fbw ins p = nd.quantAt q s.fbw ins p := by
  obtain ⟨hv, hv1⟩ := Node.preAt32_eq hw hq hf ho hp
  cases nd with
  | quantize q' => cases hq; exact evalQ32_exact _ hv1 (hh p hp)
  | activation k φ q' => cases hq; exact evalQ32_exact _ hv1 (hh p hp)
  | passive g => cases hq
  | add q' =>
    cases hq
    obtain ⟨F, hF, hg, hs⟩ := hf p hp
    refine evalQ32_exact _ hv1 (not_badHalf (F := F) (grid_sum ins (fun x => x.getD p 0) (-F) hg) ?_)
    exact lt_of_le_of_lt (abs_sum_le ins fun x => x.getD p 0) hs
  | linear L =>
    cases hq
    have hwf : L.WF s := ⟨hw.shape _ rfl, hw.clip _ rfl, hw.loc L rfl⟩
    obtain ⟨fx, fw, F, hF⟩ := hf p hp
    have := C78_layer_exact L s hwf (ins.headD []) p hp fx fw F hF o (ho _ rfl p hp) (hh p hp).1 (hh p hp).2
    unfold LinLayer.quantF LinLayer.quant at this
    rw [hwf.clip] at this
    change evalQF fl32 _ _ (Node.preAtF fl32 (.linear L) s.fbw o ins p) = _ at this
    rw [hv] at this
    exact this

theorem Node.out32_exact {nd : Node} {s : QState} {ins : List (List ℚ)} {o : ℕ → Acc (ℕ × ℕ)} (hw : nd.WF s)
    (hf : nd.Fits s ins) (hh : nd.NoHalf s ins) (ho : nd.Ordered ins.length o) : nd.out32 s.fbw ins = nd.out s.fbw ins := by
  unfold Node.out32 Node.out
  cases hs : nd.site with
  | none => rfl
  | some q =>
    simp only
    apply List.map_congr_left
    intro p hp
    rw [Node.quantAt32_exact hw hs hf hh ho (List.mem_range.mp hp)]

theorem Node.call32_exact {nd : Node} {s : QState} (record : Bool) (o : ℕ → ℕ → Acc (ℕ × ℕ)) (insB : List (List (List ℚ))) {n : ℕ}
    (hw : nd.WF s) (hl : ∀ ins ∈ insB, ins.length = n) (hf : ∀ ins ∈ insB, nd.Fits s ins ∧ nd.NoHalf s ins)
    (ho : ∀ b, nd.Ordered n (o b)) : nd.call s record insB = .ok (nd.callF fl32 s record o insB) := by
  rw [Node.call_eq _ _ _ _ hw.clip, Node.call32_eq record o insB hw hl (fun i hi => (hf i hi).1) ho]
  have hout : insB.map (nd.out32 s.fbw) = insB.map (nd.out s.fbw) := by
    apply List.map_congr_left
    intro ins hi
    exact Node.out32_exact hw (hf ins hi).1 (hf ins hi).2 (by rw [hl ins hi]; exact ho 0)
  have haft : nd.after32 s record insB = nd.after s record insB := by
    unfold Node.after32 Node.after
    cases hs : nd.site with
    | none => rfl
    | some q =>
      cases record
      · rfl
      simp only [if_true]
      congr 1
      rw [List.map_map]
      apply List.map_congr_left
      intro ins hi
      have hpz : nd.pre s.fbw ins = (List.range (prodL q.outShape)).map (nd.preAt s.fbw ins) := by
        unfold Node.pre; rw [hs]
      rw [Function.comp, hpz, qSample_range]
      apply List.map_congr_left
      intro p hp
      exact Node.quantAt32_exact hw hs (hf ins hi).1 (hf ins hi).2 (by rw [hl ins hi]; exact ho 0) (List.mem_range.mp hp)
  rw [hout, haft]

theorem Net.call32_exact (record : Bool) : ∀ (net : Net) (ss : List QState) (o : Orders) (envs : List (List (List ℚ))),
    net.All Node.WF ss → net.Ordered o → (∀ env ∈ envs, net.FitsExact ss env) →
    net.callF fl32 record ss o envs = net.call record ss envs
  | [], [], _, envs, _, _, _ => rfl
  | (nd, ins) :: rest, s :: ss, o, envs, h, ho, hf => by
    have hl : ∀ i ∈ envs.map (gather · ins), i.length = ins.length := by
      intro i hi
      obtain ⟨env, -, rfl⟩ := List.mem_map.mp hi
      simp [gather]
    have hfi : ∀ i ∈ envs.map (gather · ins), nd.Fits s i ∧ nd.NoHalf s i := by
      intro i hi
      obtain ⟨env, he, rfl⟩ := List.mem_map.mp hi
      exact (hf env he).1
    have hc := Node.call32_exact record (o 0) _ h.1 hl hfi ho.1
    have hc2 := Node.call_eq nd s record (envs.map (gather · ins)) h.1.clip
    unfold Net.callF Net.call
    rw [hc2] at hc ⊢
    have hc3 : nd.callF fl32 s record (o 0) (envs.map (gather · ins)) = _ := (Except.ok.inj hc).symm
    rw [hc3]
    have hz : List.zipWith (fun (env : List (List ℚ)) v => env ++ [v]) envs ((envs.map (gather · ins)).map (nd.out s.fbw))
        = envs.map fun env => env ++ [nd.out s.fbw (gather env ins)] := by
      rw [List.map_map, List.zipWith_map_right]
      clear hf hl hfi hc hc2 hc3
      induction envs with
      | nil => rfl
      | cons a l ih => simp
    simp only [bind, Except.bind]
    rw [hz, Net.call32_exact record rest ss (fun n => o (n + 1)) _ h.2 ho.2]
    intro e he
    obtain ⟨env, hm, rfl⟩ := List.mem_map.mp he
    exact (hf env hm).2
  | [], _ :: _, _, _, h, _, _ => h.elim
  | _ :: _, [], _, _, h, _, _ => h.elim

theorem Net.callBatches32_exact (record : Bool) (net : Net) : ∀ (bs : List (List (List (List ℚ)))) (o : ℕ → Orders) (ss : List QState),
    net.All Node.WF ss → (∀ i, net.Ordered (o i)) → (∀ env ∈ bs.flatten, net.FitsExact ss env) →
    net.callBatchesF fl32 record ss o bs = net.callBatches record ss bs
  | [], _, _, _, _, _ => rfl
  | b :: bs, o, ss, h, ho, hf => by
    unfold Net.callBatchesF Net.callBatches
    rw [net.call32_exact record ss (o 0) b h (ho 0) fun e he => hf e (by simp [he])]
    obtain ⟨s1, h1, h2, -⟩ := net.call_spec record ss b (all_imp (fun _ _ h => h.clip) h)
    rw [h1]
    simp only [bind, Except.bind]
    rw [Net.callBatches32_exact record net bs (fun i => o (i + 1)) s1 (Net.All.ext wf_ext h h2) (fun i => ho (i + 1))
      fun e he => (hf e (by rw [List.flatten_cons, List.mem_append]; exact .inr he)).congr h2.fbw]

/-- **C98**, exact arithmetic: if on the calibration data the magnitudes fit and nothing to be rounded to the nearest is just below half a
unit, `trace_minmax` in float32, in any order, records the same ranges and returns the same predictions as in exact arithmetic; and so
does inference on every such input. The theorems about models in exact arithmetic then hold for the float32 model. -/
theorem C98_exact (net : Net) (ss : List QState) (hw : net.All Node.WF ss) :
    (∀ (o : ℕ → Orders) (bsz : ℕ) (data : List (List (List ℚ))), (∀ i, net.Ordered (o i)) → 0 < bsz →
      (∀ x ∈ data, net.FitsExact ss x) → net.traceF fl32 ss o bsz data = net.trace ss bsz data) ∧
    (∀ (o : Orders) (x : List (List ℚ)), net.Ordered o → net.FitsExact ss x → net.predictF fl32 ss o x = net.predict ss x) := by
  constructor
  · intro o bsz data ho hb hf
    obtain ⟨r1, -, r3⟩ := reset_all hw
    unfold Net.traceF Net.trace
    rw [net.callBatches32_exact true (chunks bsz data) o _ r1 ho]
    rw [chunks_flatten bsz hb]
    exact fun x hx => (hf x hx).congr r3
  · intro o x ho hf
    unfold Net.predictF Net.predict
    rw [net.call32_exact false ss o [x] hw ho (by simpa using hf)]
    rfl

theorem FitsExact.fits : ∀ {net : Net} {ss : List QState} {o : Orders} {x : List (List ℚ)}, net.All Node.WF ss → net.Ordered o →
    net.FitsExact ss x → net.Fits ss x ∧ net.evalEnv32 (ss.map QState.fbw) x = net.evalEnv (ss.map QState.fbw) x
  | [], [], _, _, _, _, _ => ⟨trivial, rfl⟩
  | (nd, ins) :: rest, s :: ss, o, x, hw, ho, hf => by
    have he := Node.out32_exact (o := o 0 0) hw.1 hf.1.1 hf.1.2 (by simpa [gather] using ho.1 0)
    obtain ⟨h1, h2⟩ := FitsExact.fits hw.2 ho.2 hf.2
    refine ⟨⟨hf.1.1, by rw [he]; exact h1⟩, ?_⟩
    change Net.evalEnv32 rest _ (x ++ [nd.out32 s.fbw (gather x ins)]) = _
    rw [he]
    exact h2

/-- **C98**, exact arithmetic, the proxy: under the hypotheses of `C98_exact` and with types of at most 22 bits, the proxy obtained from the
traced model and evaluated in float32, in any order, returns on the calibration data what it returns in exact arithmetic. -/
theorem C98_proxy_exact (net : Net) (ss : List QState) (o : ℕ → Orders) (bsz : ℕ) (data : List (List (List ℚ))) (aggressive : Bool)
    (hw : net.All Node.WF ss) (ho : ∀ i, net.Ordered (o i)) (hfit : ∀ x ∈ data, net.FitsExact ss x) (hbsz : 0 < bsz)
    (hne : data ≠ []) (ss' : List QState) (preds : List (List (List ℚ))) (htr : net.traceF fl32 ss o bsz data = .ok (ss', preds))
    (hbd : net.All Bounded ss') (hty : net.All Node.TypesFit ss') :
    ∃ pm32 pm, net.toProxyF fl32 (proxySat aggressive) ss' = .ok pm32 ∧ net.toProxy (proxySat aggressive) ss' = .ok pm ∧
      ∀ x ∈ data, ∀ (o' : Orders) (b : ℕ), net.Ordered o' → pm32.eval (fun n => o' n b) x = pm.eval x := by
  obtain ⟨s1, p1, h1, h2, h3⟩ := C98_bit_accurate net ss o bsz data aggressive hw ho
    (fun x hx => (FitsExact.fits hw (ho 0) (hfit x hx)).1) hbsz hne
  rw [htr] at h1
  cases h1
  obtain ⟨pm32, g1, g2, -⟩ := h3 hbd hty
  obtain ⟨s2, p2, k1, k2, k3⟩ := C26_bit_accurate net ss bsz data aggressive hw hbsz hne
  rw [← (C98_exact net ss hw).1 o bsz data ho hbsz hfit, htr] at k1
  cases k1
  obtain ⟨pm, m1, m2, -⟩ := k3 hbd
  refine ⟨pm32, pm, g1, m1, fun x hx o' b ho' => ?_⟩
  have := (g2 o' b ho').symm.trans m2
  exact List.map_inj_left.mp this x hx

/-! ### the hypotheses are met by the network of `Verif/Props/Net.lean` -/

/-- sums from the left, and from the right with fused multiply-adds -/
def exOrderL : Orders := fun n _ p => if n = 0 then .zero else if n = 1 then exLeft p else .add (.mul (0, 0)) (.mul (1, 0))
def exOrderR : Orders := fun n _ p => if n = 0 then .zero else if n = 1 then exRight p else .fma (1, 0) (.mul (0, 0))

theorem exNet_ordered : exNet.Ordered exOrderL ∧ exNet.Ordered exOrderR := by
  constructor
  · refine ⟨fun _ => ?_, fun _ => ?_, fun _ => ?_, fun _ => ?_, trivial⟩
    · intro q hq p hp; exact List.Perm.refl _
    · intro q hq p hp; exact List.Perm.refl _
    · intro q hq; cases hq
    · intro q hq p hp; exact List.Perm.refl _
  · refine ⟨fun _ => ?_, fun _ => ?_, fun _ => ?_, fun _ => ?_, trivial⟩
    · intro q hq p hp; exact List.Perm.refl _
    · intro q hq p hp; exact List.Perm.swap _ _ _
    · intro q hq; cases hq
    · intro q hq p hp; exact List.Perm.swap _ _ _

/-- two calibration samples of float32 numbers -/
def exData32 : List (List (List ℚ)) := [[[1, 11 / 32]], [[-2, 5 / 4]]]

theorem exDense_kernel (r : Bool) (j : ℕ) : IsFloat32 ((exDense 3 [2] r).kernel j) ∧
    |(exDense 3 [2] r).kernel j * (2 : ℚ) ^ tfRound ((exDense 3 [2] r).kq.clip ((exDense 3 [2] r).kfbw j))| < 2 ^ 23 ∧
    tfRound ((exDense 3 [2] r).kq.clip ((exDense 3 [2] r).kfbw j)) ≤ 3 := by
  have h3 : tfRound ((exDense 3 [2] r).kq.clip ((exDense 3 [2] r).kfbw j)) = 3 := by change tfRound 3 = 3; decide +kernel
  rw [h3]
  change IsFloat32 ([1, -3 / 2, 1 / 2, 1].getD j (0 : ℚ)) ∧ |[1, -3 / 2, 1 / 2, 1].getD j (0 : ℚ) * (2 : ℚ) ^ (3 : ℤ)| < 2 ^ 23 ∧ _
  match j with
  | 0 => exact ⟨⟨8, -3, by norm_num, by decide +kernel⟩, by decide +kernel, le_rfl⟩
  | 1 => exact ⟨⟨-12, -3, by norm_num, by decide +kernel⟩, by decide +kernel, le_rfl⟩
  | 2 => exact ⟨⟨4, -3, by norm_num, by decide +kernel⟩, by decide +kernel, le_rfl⟩
  | 3 => exact ⟨⟨8, -3, by norm_num, by decide +kernel⟩, by decide +kernel, le_rfl⟩
  | j + 4 => exact ⟨⟨0, 0, by norm_num, by simp⟩, by simp, le_rfl⟩

theorem exDense_fits3 (r : Bool) (x : List ℚ) (hx : x = [1, 1 / 4] ∨ x = [-2, 5 / 4]) (p : ℕ) (hp : p < 2) :
    (exDense 3 [2] r).Fits32 exState x p 2 3 5 := by
  have htaps : (exDense 3 [2] r).taps p = [(0, p), (1, 2 + p)] := rfl
  refine ⟨?_, fun ij _ => exDense_kernel r ij.2, ?_, by norm_num, ?_, by norm_num, ?_⟩
  · intro ij hij
    rw [htaps] at hij
    simp only [List.mem_cons, List.not_mem_nil, or_false] at hij
    rcases hij with rfl | rfl <;> rcases hx with rfl | rfl
    · exact ⟨4, by change (1 : ℚ) = _; norm_num⟩
    · exact ⟨-8, by change (-2 : ℚ) = _; norm_num⟩
    · exact ⟨1, by change (1 / 4 : ℚ) = _; norm_num⟩
    · exact ⟨5, by change (5 / 4 : ℚ) = _; norm_num⟩
  · intro b hb
    cases hb
    rcases (show p = 0 ∨ p = 1 by omega) with rfl | rfl
    · exact ⟨⟨1, -2, by norm_num, by cases r <;> decide +kernel⟩, by cases r <;> decide +kernel⟩
    · exact ⟨⟨5, -3, by norm_num, by cases r <;> decide +kernel⟩, by cases r <;> decide +kernel⟩
  · intro e _
    unfold exState; simp only; split_ifs <;> decide +kernel
  · rcases (show p = 0 ∨ p = 1 by omega) with rfl | rfl <;> rcases hx with rfl | rfl <;> cases r <;> decide +kernel

theorem exNet_fits : ∀ x ∈ exData32, exNet.FitsExact exNetStates x := by
  have h2 : prodL exAct.outShape = 2 := rfl
  intro x hx
  simp only [exData32, List.mem_cons, List.not_mem_nil, or_false] at hx
  have hlin : ∀ x : List ℚ, x = [1, 1 / 4] ∨ x = [-2, 5 / 4] →
      (Node.linear (exDense 3 [2] true)).Fits exState [x] ∧ (Node.linear (exDense 3 [2] true)).NoHalf exState [x] := by
    intro x hx
    refine ⟨fun p hp => ⟨2, 3, 5, exDense_fits3 true x hx p hp⟩, fun p hp => ⟨fun ij hij => ?_, fun b hb => ?_⟩⟩
    · have hp : p < 2 := hp
      have htaps : (exDense 3 [2] true).taps p = [(0, p), (1, 2 + p)] := rfl
      rw [htaps] at hij
      simp only [List.mem_cons, List.not_mem_nil, or_false] at hij
      rcases (show p = 0 ∨ p = 1 by omega) with rfl | rfl <;> rcases hij with rfl | rfl <;> decide +kernel
    · have hp : p < 2 := hp
      cases hb
      rcases (show p = 0 ∨ p = 1 by omega) with rfl | rfl <;> decide +kernel
  have o1 : Node.out (.quantize exAct) exState.fbw [[1, 11 / 32]] = [1, 1 / 4] := by decide +kernel
  have o2 : Node.out (.quantize exAct) exState.fbw [[-2, 5 / 4]] = [-2, 5 / 4] := by decide +kernel
  have l1 : Node.out (.linear (exDense 3 [2] true)) exState.fbw [[1, 1 / 4]] = [1, 0] := by decide +kernel
  have l2 : Node.out (.linear (exDense 3 [2] true)) exState.fbw [[-2, 5 / 4]] = [0, 19 / 4] := by decide +kernel
  rcases hx with rfl | rfl
  · refine ⟨⟨?_, ?_⟩, ?_⟩
    · intro p hp
      rcases (show p = 0 ∨ p = 1 by have : p < 2 := hp; omega) with rfl | rfl
      · exact ⟨⟨1, 0, by norm_num, by decide +kernel⟩, by decide +kernel⟩
      · exact ⟨⟨11, -5, by norm_num, by decide +kernel⟩, by decide +kernel⟩
    · intro p hp
      rcases (show p = 0 ∨ p = 1 by have : p < 2 := hp; omega) with rfl | rfl <;> decide +kernel
    · change Net.FitsExact _ _ [[1, 11 / 32], Node.out (.quantize exAct) exState.fbw [[1, 11 / 32]]]
      rw [o1]
      refine ⟨hlin _ (.inl rfl), ?_⟩
      change Net.FitsExact _ _ [[1, 11 / 32], [1, 1 / 4], Node.out (.linear (exDense 3 [2] true)) exState.fbw [[1, 1 / 4]]]
      rw [l1]
      refine ⟨⟨trivial, trivial⟩, ⟨fun p hp => ⟨5, ?_⟩, trivial⟩, trivial⟩
      rcases (show p = 0 ∨ p = 1 by have : p < 2 := hp; omega) with rfl | rfl
      · refine ⟨by decide +kernel, ?_, by decide +kernel⟩
        change ∀ x ∈ [[1, 1 / 4], [(0 : ℚ), 1]], _
        simp only [List.mem_cons, List.not_mem_nil, or_false, forall_eq_or_imp, forall_eq]
        exact ⟨⟨32, by decide +kernel⟩, ⟨0, by decide +kernel⟩⟩
      · refine ⟨by decide +kernel, ?_, by decide +kernel⟩
        change ∀ x ∈ [[1, 1 / 4], [(0 : ℚ), 1]], _
        simp only [List.mem_cons, List.not_mem_nil, or_false, forall_eq_or_imp, forall_eq]
        exact ⟨⟨8, by decide +kernel⟩, ⟨32, by decide +kernel⟩⟩
  · refine ⟨⟨?_, ?_⟩, ?_⟩
    · intro p hp
      rcases (show p = 0 ∨ p = 1 by have : p < 2 := hp; omega) with rfl | rfl
      · exact ⟨⟨-2, 0, by norm_num, by decide +kernel⟩, by decide +kernel⟩
      · exact ⟨⟨5, -2, by norm_num, by decide +kernel⟩, by decide +kernel⟩
    · intro p hp
      rcases (show p = 0 ∨ p = 1 by have : p < 2 := hp; omega) with rfl | rfl <;> decide +kernel
    · change Net.FitsExact _ _ [[-2, 5 / 4], Node.out (.quantize exAct) exState.fbw [[-2, 5 / 4]]]
      rw [o2]
      refine ⟨hlin _ (.inr rfl), ?_⟩
      change Net.FitsExact _ _ [[-2, 5 / 4], [-2, 5 / 4], Node.out (.linear (exDense 3 [2] true)) exState.fbw [[-2, 5 / 4]]]
      rw [l2]
      refine ⟨⟨trivial, trivial⟩, ⟨fun p hp => ⟨5, ?_⟩, trivial⟩, trivial⟩
      rcases (show p = 0 ∨ p = 1 by have : p < 2 := hp; omega) with rfl | rfl
      · refine ⟨by decide +kernel, ?_, by decide +kernel⟩
        change ∀ x ∈ [[(-2 : ℚ), 5 / 4], [(19 / 4 : ℚ), 0]], _
        simp only [List.mem_cons, List.not_mem_nil, or_false, forall_eq_or_imp, forall_eq]
        exact ⟨⟨-64, by decide +kernel⟩, ⟨152, by decide +kernel⟩⟩
      · refine ⟨by decide +kernel, ?_, by decide +kernel⟩
        change ∀ x ∈ [[(-2 : ℚ), 5 / 4], [(19 / 4 : ℚ), 0]], _
        simp only [List.mem_cons, List.not_mem_nil, or_false, forall_eq_or_imp, forall_eq]
        exact ⟨⟨40, by decide +kernel⟩, ⟨0, by decide +kernel⟩⟩

/-- `trace_minmax` of the network in float32, the first batch in one order, the others in the other one -/
def exTraced32 : List QState := match exNet.traceF fl32 exNetStates (fun i => if i = 0 then exOrderL else exOrderR) 1 exData32 with
  | .ok (ss, _) => ss
  | .error _ => []

-- recorded ranges and types fit: `C98_bit_accurate` applies
example : (exTraced32.map fun s => ((s.mn 0).untopD 99, (s.mn 1).untopD 99, (s.mx 0).unbotD (-99), (s.mx 1).unbotD (-99))) =
    [(-2, 1 / 4, 1, 5 / 4), (-3 / 2, -3 / 4, 1, 19 / 4), (99, 99, -99, -99), (1, 5 / 4, 3, 5 / 4)] := by decide +kernel

example : exNet.All Node.TypesFit exTraced32 := by
  have h2 : ∀ p, p < 2 → p = 0 ∨ p = 1 := by omega
  refine ⟨?_, ⟨?_, ?_⟩, trivial, ?_, ?_⟩
  · intro p hp; rcases h2 p hp with rfl | rfl <;> decide +kernel
  · intro p hp; rcases h2 p hp with rfl | rfl <;> decide +kernel
  · intro _; decide +kernel
  · intro p hp; rcases h2 p hp with rfl | rfl <;> decide +kernel
  · trivial

example : (match exNet.toProxyF fl32 .SAT exTraced32 with | .ok pm => exData32.map (pm.eval fun n => exOrderR n 0) | .error _ => []) =
    [[[1, 11 / 32], [1, 1 / 4], [1, 0], [0, 1], [1, 5 / 4]],
     [[-2, 5 / 4], [-2, 5 / 4], [0, 19 / 4], [19 / 4, 0], [3, 5 / 4]]] := by decide +kernel

example : ∃ ss' preds, exNet.traceF fl32 exNetStates (fun i => if i = 0 then exOrderL else exOrderR) 1 exData32 = .ok (ss', preds) := by
  have ho : ∀ i : ℕ, exNet.Ordered (if i = 0 then exOrderL else exOrderR) := by
    intro i; split_ifs
    · exact exNet_ordered.1
    · exact exNet_ordered.2
  obtain ⟨ss', preds, h, -⟩ := C98_bit_accurate exNet exNetStates _ 1 exData32 true exNet_wf ho
    (fun x hx => (FitsExact.fits exNet_wf exNet_ordered.1 (exNet_fits x hx)).1) (by decide) (by decide)
  exact ⟨ss', preds, h⟩

/-- `to_proxy_model` refuses a model with a quantizer element that has not recorded a range, wherever the layer is in the model. -/
theorem C98_untraced_refused (S : Sat) (net : Net) (ss : List QState) (i : ℕ) (nd : Node) (ins : List ℕ) (s : QState) (q : QSite)
    (hi : net[i]? = some (nd, ins)) (hs : ss[i]? = some s) (hq : nd.site = some q) (e : ℕ) (he : e < prodL q.qShape)
    (hun : s.mn e = ⊤ ∨ s.mx e = ⊥) : ∃ err, net.toProxyF fl32 S ss = .error err := by
  induction net generalizing ss i with
  | nil => simp at hi
  | cons a rest ih =>
    obtain ⟨nd0, ins0⟩ := a
    cases ss with
    | nil => exact ⟨_, rfl⟩
    | cons s0 ss =>
      unfold Net.toProxyF
      cases i with
      | zero =>
        cases hi; cases hs
        have hall : ¬ (List.range (prodL q.qShape)).all (fun e => rangeOk (s.mn e) (s.mx e)) = true := by
          rw [List.all_eq_true]
          intro h
          have := h e (List.mem_range.mpr he)
          rcases hun with hun | hun <;> rw [hun] at this
          · cases this
          · cases hm : s.mn e <;> rw [hm] at this <;> cases this
        have : nd.toProxyF fl32 s S = .error "Some min values are larger than max values. Did you forget to run trace_minmax?" := by
          unfold Node.toProxyF
          rw [hq]
          simp only [QState.getBitsExact, if_neg hall]
        rw [this]
        exact ⟨_, rfl⟩
      | succ i =>
        cases nd0.toProxyF fl32 s0 S with
        | error err => exact ⟨err, rfl⟩
        | ok f =>
          obtain ⟨err, h⟩ := ih ss i (by simpa using hi) (by simpa using hs)
          simp only [h, bind, Except.bind]
          exact ⟨err, rfl⟩

-- calibrated, then reset, as by `ResetMinMax`
example : ∃ err, exNet.toProxyF fl32 .SAT (exTraced32.map QState.reset) = .error err :=
  C98_untraced_refused .SAT exNet _ 1 (.linear (exDense 3 [2] true)) [1] ((exTraced32.getD 1 exState).reset) _ rfl (by rfl) rfl 0
    (by decide) (.inl rfl)

/-! ### the bound is needed -/

/-- one layer with four products -/
def exFourNet : Net := [(.linear exFour, [0])]

/-- Without the bound on magnitudes a sample on which the model was calibrated can give a different result in the proxy: four products
`2^24, 1, 1, -2^24` summed pairwise by the model give 2, and from the left by the proxy give 0. -/
theorem C98_bound_needed :
    let x : List ℚ := [2 ^ 24, 1, 1, -2 ^ 24]
    let o : Orders := fun _ _ _ => .add (.add (.mul (1, 0)) (.mul (2, 0))) (.add (.mul (0, 0)) (.mul (3, 0)))
    let o' : Orders := fun _ _ _ => .fma (3, 0) (.fma (2, 0) (.fma (1, 0) (.mul (0, 0))))
    (match exFourNet.traceF fl32 [exWrapState] (fun _ => o) 1 [[x]] with
      | .ok (ss, preds) => (preds.map fun e => e.drop 1, match exFourNet.toProxyF fl32 .WRAP ss with
          | .ok pm => [(pm.eval (fun n => o' n 0) [x]).drop 1, (pm.eval (fun n => o n 0) [x]).drop 1]
          | .error _ => [])
      | .error _ => ([], [])) = ([[[2]]], [[[0]], [[2]]]) := by
  decide +kernel

end HGQ
