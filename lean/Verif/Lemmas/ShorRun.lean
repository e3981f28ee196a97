import Verif.Lemmas.Pick
import Verif.Lemmas.Oracle
import Verif.Lemmas.GroverRun
import Verif.Props.Qfft

/-! # The objects made by the Shor example -/

namespace QIP

open Spec Heap Finset

/-- `F(f, a, b)`, with the objects made. -/
theorem Top.fop_pieces {s : WState} {live rest : List Nat} {a b : Nat} (t : Top s live) (hp : live.Perm ([a, b] ++ rest))
    {f : Nat → Except PyErr Int} (kw : List Kwd)
    (hK : KindFits (width s.heap live) [wires s.heap live a, wires s.heap live b] (.fop f)) :
    ∃ s' x y, Call s live [a, b] rest (callWrapper (.fop f) kw [a, b] s) [wires s.heap live a, wires s.heap live b]
      (fun n => kindApply n (.fop f) [wires s.heap live a, wires s.heap live b]) s' [x, y] ∧
      ∃ z is js, s'.heap.inputs x = [z] ∧ s'.heap.inputs y = [z] ∧ s'.heap.kind y = .split is ∧ x ≠ y ∧
        s'.heap.kind x = .split js ∧ s'.heap.kind z = .fop f ∧ s'.heap.inputs z = [a, b] := by
  obtain ⟨s', x, y, c⟩ := t.fop hp kw hK
  refine ⟨s', x, y, c, ?_⟩
  obtain ⟨env, l⟩ := t.alive
  obtain ⟨z, h1, outs, h2, r1, r2, stp⟩ := fop_step l hp hK
  obtain ⟨V, hw, hk, hV⟩ := built_wf l.circuit.built
  have hlv : ∀ i ∈ [a, b], i ∈ live := fun i hi => hp.mem_iff.2 (List.mem_append_left _ hi)
  have hin : ∀ i ∈ [a, b], V i := fun i hi => hV i (l.circuit.held i (hlv i hi))
  obtain ⟨e1, w1, s1⟩ := construct_spec hw (.fop f) false hin
  rw [r1] at e1 w1 s1
  simp only at e1 w1 s1
  have cx := s1 z rfl
  have happ : applyInContext (.fop f) ((Ctor.fop f).positional [a, b]) s = (.ok outs, { s with heap := h2 }) := by
    unfold applyInContext
    have hst : ¬ 0 < s.stack.length := by rw [t.stack]; simp
    simp only [hst, decide_false, Bool.false_eq_true, ↓reduceIte]
    have : constructArgs s.heap (.fop f) (wrapperKw [] []) ((Ctor.fop f).positional [a, b])
        = s.heap.construct (.fop f) false [a, b] := by
      unfold constructArgs Ctor.positional
      rfl
    rw [this, r1]
    simp only
    rw [r2]
  have hret := c.ret
  unfold callWrapper at hret
  rw [W.bind_ok happ] at hret
  have hret' : outs = [x, y] ∧ h2 = s'.heap := by
    have h := hret
    have hlen : outs.length = 2 := by have := congrArg List.length stp.wires; simpa using this
    rw [if_neg (by omega)] at h
    change (Except.ok outs, { s with heap := h2 }) = _ at h
    simp only [Prod.mk.injEq, Except.ok.injEq] at h
    exact ⟨h.1, by rw [← h.2]⟩
  obtain ⟨rfl, rfl⟩ := hret'
  have hok := cx.ok
  unfold KindOK at hok
  have hkz : h1.kind z = .fop f := by
    obtain ⟨h', r, e, w, c⟩ := initQubit_ok hw (kind := .fop f) (inputs := [a, b]) (n := none) (qid := none) hin
      qidOK_none (by simp) (initN_pos (by simp) fun x hx => l.pos (.arg (hlv x hx)))
    have : s.heap.construct (.fop f) false [a, b] = (.ok s.heap.nodes.length, h') := by
      unfold construct
      simpa using r
    rw [r1] at this
    simp only [Prod.mk.injEq, Except.ok.injEq] at this
    obtain ⟨rfl, rfl⟩ := this
    exact c.kindx
  rw [hkz] at hok
  obtain ⟨-, -, hn⟩ := hok
  rw [cx.inputs] at hn
  obtain ⟨h2', r2', c2⟩ := split_default cx.wf (q := z) (Or.inr rfl) (by rw [cx.inputs]; simp) (by
    intro p hp
    rw [cx.inputs] at hp
    rw [e1.n p (hw.vlt p (hin p hp))]
    exact l.pos (.arg (hlv p hp))) (by rw [cx.inputs]; exact hn)
  rw [r2] at r2'
  simp only [Prod.mk.injEq, Except.ok.injEq, cx.inputs] at r2'
  obtain ⟨ho, rfl⟩ := r2'
  simp only [List.length_cons, List.length_nil, Nat.zero_add, Nat.reduceAdd, List.range'_succ, List.range'_zero,
    List.cons.injEq, and_true] at ho
  obtain ⟨rfl, rfl⟩ := ho
  rw [cx.inputs] at c2
  have hpl : (partSums h1 [a, b]).length = 3 := by simp [partSums]
  have p0 := c2.piece 0 (by omega)
  have p1 := c2.piece 1 (by omega)
  have hz : z < h1.nodes.length := by have := cx.last; omega
  exact ⟨z, _, _, p0.inputs, p1.inputs, p1.kind, by omega, p0.kind, by rw [c2.ext.kind z hz, hkz], by
    rw [c2.ext.inputs z hz, cx.inputs]⟩

/-- `QFFT(*qs)`. -/
theorem Top.qfft {s : WState} {live qs rest : List Nat} (t : Top s live) (hp : live.Perm (qs ++ rest)) {f : Nat}
    (hw : s.wraps f = 0) (rev : Bool) (hne : qs ≠ []) :
    ∃ s' outs, Call s live qs rest (QIP.qfft f rev qs s) (qs.map (wires s.heap live))
      (fun n => actAll n (qfftActs rev (qs.map (wires s.heap live)).flatten)) s' outs := by
  obtain ⟨env, l⟩ := t.alive
  set ws := (qs.map (wires s.heap live)).flatten with hws
  have hc0 : InCtl s [] := ⟨by simp [t.stack], by simp [t.total]⟩
  have R2 : Ran s [] live rest (QIP.qfft f rev qs s) (qs.map (wires s.heap live)) (qfftActs rev ws) := by
    have := call_ok (f := f) (body := qfftBody rev) (ins := qs) (rest := rest) (live := live)
      (Wo := qs.map (wires s.heap live)) (acts := qfftActs rev ws) hc0 (by rw [hw]; simp) (by
        intro s1 hc1 hh1 hw1
        rw [hw] at hc1 ⊢
        simp only [List.take_zero, List.reverse_nil, List.append_nil, List.drop_zero] at hc1 ⊢
        have r : Ready s1 [] live qs rest :=
          ⟨hc1, ⟨env, hh1 ▸ l⟩, by simpa using hp, hh1 ▸ t.unused, by simp⟩
        have := qfftBody_ok rev r hne
        rwa [hh1] at this)
    rw [hw] at this
    have em : Act.more ([] : List Nat) = id := by funext a; simp [Act.more]
    simpa [QIP.qfft, em] using this
  obtain ⟨cs2, outs2, drop2, h2, st2, r2, a2, b2, e2, w2, w2'⟩ := R2.ran
  have hcs2 : cs2 = [] := by
    have := congrArg List.length w2
    simpa using this
  subst hcs2
  have hp2 : live.Perm ([] ++ qs ++ rest) := by simpa using hp
  have hd2 : drop2 = [] := by
    refine drop_nil (cs := []) (cs' := []) l hp2 e2 rfl rfl ?_
    rw [w2']
  subst hd2
  simp only [List.nil_append, List.map_nil, List.flatten_nil] at e2 w2'
  have em : Act.more ([] : List Nat) = id := by funext a; simp [Act.more]
  rw [em, List.map_id] at e2
  have hst : st2 = [] := by rw [t.stack] at a2; simpa using a2
  subst hst
  refine ⟨_, outs2, r2, ?_, ⟨rfl, t.total, e2.new, e2.unused⟩, w2', e2, rfl⟩
  rw [← w2']; simp

/-- A call extends the heap. -/
theorem built_ext {h h' : Heap} {env xs : List Nat} (hb : Built h env) {cmd : Cmd} (ha : ∀ x ∈ cmd.args, x ∈ env)
    (hx : h.exec cmd = (.ok xs, h')) : Ext h h' ∧ Built h' (env ++ xs) := by
  obtain ⟨V, hw, hk, hV⟩ := built_wf hb
  obtain ⟨V', -, e, -⟩ := exec_spec hw hk cmd fun x hx => hV x (ha x hx)
  have hb' := Built.call cmd hb ha
  rw [hx] at e hb'
  exact ⟨e, hb'⟩

/-- `StochasticMeasure(*ins)`. -/
theorem smeasure_exec {h : Heap} {env ins : List Nat} (hb : Built h env) (hins : ∀ x ∈ ins, x ∈ env) (hne : ins ≠ [])
    (hpos : ∀ x ∈ ins, 0 < h.n x) : ∃ h', h.exec (.smeasure ins 0) = (.ok [h.nodes.length], h') := by
  obtain ⟨V, hw, hk, hV⟩ := built_wf hb
  have hin : ∀ i ∈ ins, V i := fun i hi => hV i (hins i hi)
  obtain ⟨h1, r1, e1, w1, c1⟩ := initQubit_ok hw (kind := .smeasure 0) (inputs := ins) (n := none) (qid := none) hin
    qidOK_none (by simp) (initN_pos (by simpa using hne) hpos)
  have hok := registerSinks_other (h := h1) (x := h.nodes.length) ins (by rw [c1.kindx]; simp)
  rcases hr : h1.registerSinks h.nodes.length ins with ⟨r, h2⟩
  rw [hr] at hok
  simp only at hok
  subst hok
  refine ⟨h2, ?_⟩
  unfold exec mkStochastic
  simp only
  rw [r1]
  simp only
  rw [hr]
  rfl

/-- The state in which the circuit starts. -/
noncomputable def shorStart (m n : Nat) (r : Nat) : ℂ :=
  ((1 * (2 ^ m : ℝ) ^ (-1 / 2 : ℝ) : ℝ) : ℂ) * if r % 2 ^ n = 0 then 1 else 0

theorem shor_objects {m n x N : Nat} (hm : 0 < m) (hn : 0 < n) (h30 : m + n ≤ 30) (hN : 0 < N) (hN2 : N ≤ 2 ^ n) :
    ∃ mq mm S, shorCircuit m n x N ⟨Heap.empty, [], 0, fun _ => 0⟩ = (.ok (mq, mm), S) ∧
      Measured S.heap mm [] (m + n) (List.range m) (startAmp S.heap [mm] []) (fun v =>
        actAll (m + n) (qfftActs true (List.range m))
          (kindApply (m + n) (.fop (powMod x N)) [List.range m, (List.range n).map (m + ·)] v)) ∧
      ∀ r < 2 ^ (m + n), startAmp S.heap [mm] [] r = shorStart m n r := by
  -- the registers
  have hd1 : badDefault m (some (.array (shorDefault m))) = false := rfl
  have hd2 : badDefault n none = false := rfl
  obtain ⟨a1, -, b1⟩ := allRegs_push allRegs_empty hm hd1
  have x1 := exec_register (h := Heap.empty) hm hd1
  rw [x1] at a1 b1
  simp only [List.nil_append, List.length_nil] at a1 b1
  set h1 := Heap.empty.push (Heap.empty.newNode .qubit [] (some (m : Int)) none (some (.array (shorDefault m)))) (Heap.empty.newNext none) with hh1
  obtain ⟨a2, c2, b2⟩ := allRegs_push a1 hn hd2
  have x2 := exec_register (h := h1) hn hd2
  rw [x2] at a2 b2 c2
  simp only [List.singleton_append, List.length_cons, List.length_nil, Nat.zero_add] at a2 b2 c2
  set h2 := h1.push (h1.newNode .qubit [] (some (n : Int)) none none) (h1.newNext none) with hh2
  have cur := a2.current (by simp [hm, hn])
  have hr2 : List.range [m, n].length = [0, 1] := rfl
  rw [hr2] at cur
  have hw2 : width h2 [0, 1] = m + n := by have := a2.width; rw [hr2] at this; simpa using this
  have hwq : wires h2 [0, 1] 0 = List.range m := by have := a2.wires (x := 0) (by simp); rw [hr2] at this; simpa using this
  have hwa : wires h2 [0, 1] 1 = (List.range n).map (m + ·) := by
    have := a2.wires (x := 1) (by simp); rw [hr2] at this; simpa using this
  have t0 : Top ⟨h2, [], 0, fun _ => 0⟩ [0, 1] := ⟨rfl, rfl, ⟨_, cur.live⟩, cur.unused⟩
  -- the oracle
  obtain ⟨s1, p1, q1, k1, z, is, -, iz1, iz2, kq, hpq, -⟩ := t0.fop_pieces (a := 0) (b := 1) (rest := []) (by simp)
    (f := powMod x N) []
    ⟨by rw [hw2]; exact h30, by
      intro i _
      unfold powMod
      rw [if_neg (by omega)]
      refine ⟨_, rfl, ?_, ?_⟩
      · have : (0 : Int) ≤ ((x ^ i % N : Nat) : Int) := Int.natCast_nonneg _
        omega
      · have h1 : x ^ i % N < N := Nat.mod_lt _ hN
        have h2 : 2 ^ n ≤ 2 ^ 30 := Nat.pow_le_pow_right (by norm_num) (by omega)
        have h3 : (2 : Nat) ^ 30 = 1073741824 := by norm_num
        omega, Or.inl (by rw [hw2, hwq, hwa]; simp)⟩
  rw [hwq, hwa] at k1
  have u1 := k1.wires
  simp only [List.map_cons, List.map_nil, List.append_nil, List.cons.injEq, and_true] at u1
  have v1 : width s1.heap [p1, q1] = m + n := k1.ev.width.trans hw2
  have t1 : Top s1 [p1, q1] := k1.top
  -- QFFT
  obtain ⟨s2, o2, k2⟩ := t1.qfft (qs := [p1]) (rest := [q1]) (by simp) (f := 0) (by rw [k1.wraps]) true (by simp)
  obtain ⟨p2, rfl⟩ : ∃ p, o2 = [p] := List.length_eq_one_iff.1 (by have := k2.len; simpa using this)
  have e2 : [p1].map (wires s1.heap [p1, q1]) = [List.range m] := by simp [u1.1]
  rw [e2] at k2
  have u2 := k2.wires
  simp only [List.map_cons, List.map_nil, List.cons.injEq, and_true, List.singleton_append] at u2
  have v2 : width s2.heap [p2, q1] = m + n := k2.ev.width.trans v1
  have t2 : Top s2 [p2, q1] := k2.top
  obtain ⟨env2, l2⟩ := t2.alive
  have hb2 := l2.circuit.built
  have hnd2 := l2.nodup
  have hpos2 : ∀ y ∈ [p2, q1], 0 < s2.heap.n y := fun y hy => l2.pos (.arg hy)
  have hev : Evolves h2 [0, 1] s2.heap [p2, q1] _ := k1.ev.trans k2.ev
  obtain ⟨_, l1⟩ := k2.ev.old
  obtain ⟨V1, c1⟩ := l1.circuit.ctx
  obtain ⟨V2, cc2⟩ := l2.circuit.ctx
  -- the join and the split
  obtain ⟨h3, r3, kd3, in3, n3, len3⟩ := join_free hb2 l2.circuit.held hnd2 t2.unused (by
    have := hpos2 p2 (by simp)
    simp only [List.map_cons, List.map_nil, List.sum_cons, List.sum_nil]
    omega)
  obtain ⟨e3, hb3⟩ := built_ext hb2 (cmd := .qubit [p2, q1] none none) l2.circuit.held r3
  set j := s2.heap.nodes.length with hj
  obtain ⟨V3, w3, k3, hV3⟩ := built_wf hb3
  have hlt2 : ∀ y ∈ [p2, q1], y < s2.heap.nodes.length := fun y hy => cc2.lt (.arg hy)
  have hn3 : [p2, q1].map h3.n = [p2, q1].map s2.heap.n := List.map_congr_left fun y hy => e3.n y (hlt2 y hy)
  obtain ⟨h4, r4, cut4⟩ := split_default w3 (q := j) (hV3 j (by simp)) (by rw [in3]; simp) (by
    intro p hp
    rw [in3] at hp
    rw [e3.n p (hlt2 p hp)]
    exact hpos2 p hp) (by rw [in3, n3, hn3])
  rw [in3] at r4 cut4
  simp only [List.length_cons, List.length_nil, Nat.zero_add, Nat.reduceAdd, List.range'_succ, List.range'_zero] at r4
  have r4' : h3.exec (.split j none) = (.ok [h3.nodes.length, h3.nodes.length + 1], h4) := r4
  obtain ⟨e4, hb4⟩ := built_ext hb3 (cmd := .split j none) (by simp [Cmd.args]) r4'
  have hpos4 : 0 < h4.n h3.nodes.length := by
    obtain ⟨V4, w4, k4, hV4⟩ := built_wf hb4
    have := k4 h3.nodes.length (hV4 _ (by simp))
    have p0 := cut4.piece 0 (by simp [partSums])
    unfold KindOK at this
    rw [show h3.nodes.length + 0 = h3.nodes.length from rfl] at p0
    rw [p0.kind] at this
    exact this.2.1
  -- the reports
  obtain ⟨h5, r5⟩ := smeasure_exec hb4 (ins := [h3.nodes.length]) (by simp) (by simp) (by simpa using hpos4)
  obtain ⟨e5, hb5⟩ := built_ext hb4 (cmd := .smeasure [h3.nodes.length] 0) (by simp [Cmd.args]) r5
  have e25 := (e3.trans e4).trans e5
  have hpenv : p2 ∈ env2 := l2.circuit.held p2 (by simp)
  obtain ⟨h6, r6, e6, hb6, kd6, in6, n6⟩ := measure_exec hb5 (ins := [p2]) (by
      intro y hy; rw [List.mem_singleton] at hy; subst hy; simp [hpenv]) (by simp) (by
      intro y hy; rw [List.mem_singleton] at hy; subst hy
      rw [e25.n _ (hlt2 _ (by simp))]; exact hpos2 _ (by simp))
  -- what qft depends on
  obtain ⟨new, g2, -⟩ := k2.ev.grows
  have hext2 := g2.ext
  have hp1lt : p1 < s1.heap.nodes.length := c1.lt (.arg (by simp))
  have hq1lt : q1 < s1.heap.nodes.length := c1.lt (.arg (by simp))
  have iz1' : s2.heap.inputs p1 = [z] := (hext2.inputs p1 hp1lt).trans iz1
  have iz2' : s2.heap.inputs q1 = [z] := (hext2.inputs q1 hq1lt).trans iz2
  have kq' : s2.heap.kind q1 = .split is := (hext2.kind q1 hq1lt).trans kq
  have hzp : z < p1 := c1.ilt (.arg (by simp)) z (by rw [iz1]; simp)
  have hsplit : ∀ y, Reach s2.heap [p2, q1] y → Reach s2.heap [p2] y ∨ y = q1 ∨ Reach s2.heap [z] y := by
    intro y hy
    induction hy with
    | @arg y hy =>
      simp only [List.mem_cons, List.not_mem_nil, or_false] at hy
      rcases hy with rfl | rfl
      · exact Or.inl (.arg (by simp))
      · exact Or.inr (Or.inl rfl)
    | @input y w _ hi ih =>
      rcases ih with ih | rfl | ih
      · exact Or.inl (.input ih hi)
      · rw [iz2', List.mem_singleton] at hi
        subst hi
        exact Or.inr (Or.inr (.arg (by simp)))
      · exact Or.inr (Or.inr (.input ih hi))
  have hle : ∀ y, Reach s2.heap [z] y → y ≤ z := by
    have : ∀ y, Reach s2.heap [z] y → Reach s2.heap [p2, q1] y ∧ y ≤ z := by
      intro y hy
      induction hy with
      | arg hy =>
        rw [List.mem_singleton] at hy
        subst hy
        exact ⟨.input (.arg (x := q1) (by simp)) (by rw [iz2']; simp), le_rfl⟩
      | input _ hi ih =>
        have := cc2.ilt ih.1 _ hi
        exact ⟨.input ih.1 hi, by omega⟩
    exact fun y hy => (this y hy).2
  have hreach1 : Reach s2.heap [p2] p1 := by
    have : Reach s2.heap [p2, q1] p1 := (g2.reach p1).2 (Or.inl (.arg (by simp)))
    rcases hsplit p1 this with h | h | h
    · exact h
    · exact absurd h hpq
    · have := hle p1 h; omega
  have hreachz : ∀ y, Reach s2.heap [z] y → Reach s2.heap [p2] y := by
    intro y hy
    induction hy with
    | arg hy =>
      rw [List.mem_singleton] at hy
      subst hy
      exact .input hreach1 (by rw [iz1']; simp)
    | input _ hi ih => exact .input ih hi
  have hdropped : ∀ y, Reach s2.heap [p2, q1] y → ¬ Reach s2.heap [p2] y → y = q1 := by
    intro y hy hn
    rcases hsplit y hy with h | h | h
    · exact absurd h hn
    · exact h
    · exact absurd (hreachz y h) hn
  have hleaves : leaves s2.heap [p2] = leaves s2.heap [p2, q1] := by
    classical
    unfold leaves
    rw [needed_part (args := [p2, q1]) (by simp), List.filter_filter]
    apply List.filter_congr
    intro y hy
    have hy' := (mem_needed cc2.wf cc2.vargs).1 hy
    by_cases h : Reach s2.heap [p2] y
    · simp [h]
    · have := hdropped y hy' h
      subst this
      simp [isLeaf, iz2']
  have hb0 : h2.default 0 = some (.array (shorDefault m)) := (c2 0 (by simp)).trans b1
  have hl := a2.leaves
  rw [hr2] at hl
  have n0 := a2.n 0 (by simp)
  have n1 := a2.n 1 (by simp)
  simp at n0 n1
  have hst : Startable h2 [0, 1] [] := by
    refine ⟨⟨by simp, by simp, by simp⟩, ?_⟩
    intro q hq _
    rw [hl] at hq
    simp only [List.mem_cons, List.not_mem_nil, or_false] at hq
    unfold DefaultOK
    rcases hq with rfl | rfl
    · rw [hb0]; simp [shorDefault, n0]
    · rw [b2]; trivial
  have M := measured l2 e25 hb5 (q := p2) (by simp) (by simp [hpenv]) hleaves (by
    intro y hy hn k v
    have := hdropped y hy hn
    subst this
    unfold nodeApply
    rw [kq']) (hev.startable hst) r6
  rw [v2, u2] at M
  have hT : applyAll (m + n) s2.heap [p2, q1] (needed s2.heap [p2, q1]) = fun v =>
      actAll (m + n) (qfftActs true (List.range m))
          (kindApply (m + n) (.fop (powMod x N)) [List.range m, (List.range n).map (m + ·)] v) := by
    funext v
    have := hev.state (m + n) v
    rw [this]
    have ha := a2.applyAll (m + n) v
    rw [hr2] at ha
    rw [ha, List.flatten_cons, List.flatten_nil, List.append_nil]
  rw [hT] at M
  refine ⟨h4.nodes.length, h5.nodes.length, { s2 with heap := h6 }, ?_, ?_, ?_⟩
  · unfold shorCircuit
    have y1 : direct (.qubit [] (some (m : Int)) (some (.array (shorDefault m)))) ⟨Heap.empty, [], 0, fun _ => 0⟩
        = (.ok [0], ⟨h1, [], 0, fun _ => 0⟩) := direct_ok x1
    rw [W.bind_ok (single_ok y1)]
    have y2 : direct (.qubit [] (some (n : Int)) none) ⟨h1, [], 0, fun _ => 0⟩
        = (.ok [1], ⟨h2, [], 0, fun _ => 0⟩) := by
      have := direct_ok (s := ⟨h1, [], 0, fun _ => 0⟩) x2
      rw [a1.len] at this
      exact this
    rw [W.bind_ok (single_ok y2), W.bind_ok k1.ret]
    dsimp only
    rw [W.bind_ok (single_ok k2.ret), W.bind_ok (single_ok (direct_ok r3)),
      W.bind_ok (direct_ok (s := { s2 with heap := h3 }) r4')]
    dsimp only
    rw [W.bind_ok (single_ok (direct_ok (s := { s2 with heap := h4 }) r5)),
      W.bind_ok (single_ok (direct_ok (s := { s2 with heap := h5 }) r6))]
    rfl
  · have := M.begins
    rw [← this] at M
    exact M
  · intro r hr
    rw [M.begins]
    obtain ⟨_, lo⟩ := hev.old
    obtain ⟨_, co⟩ := lo.circuit.ctx
    obtain ⟨_, g, -⟩ := hev.grows
    rw [g.startAmp co cc2 hst.1]
    unfold startAmp
    simp only [hw2, hl, List.map_nil, List.flatten_nil, List.not_mem_nil, not_false_eq_true, decide_true, List.prod_nil,
      one_mul, List.filter_true, List.map_cons, List.prod_cons, mul_one, hwq, hwa, subIndex_high hr, subIndex_low]
    unfold startVec shorStart
    have hlt : r / 2 ^ n < 2 ^ m := by rw [Nat.div_lt_iff_lt_mul (by positivity), ← pow_add]; exact hr
    simp only [hb0, b2, n1]
    congr 1
    · unfold shorDefault
      rw [List.getD_eq_getElem _ _ (by simpa using hlt), List.getElem_replicate]
    · have hlt2 : r % 2 ^ n < 2 ^ n := Nat.mod_lt _ (by positivity)
      rw [List.getD_eq_getElem _ _ (by simpa using hlt2), List.getElem_set]
      by_cases h0 : r % 2 ^ n = 0
      · rw [if_pos h0, if_pos h0.symm]
      · rw [if_neg h0, if_neg (fun e => h0 e.symm), List.getElem_replicate]

end QIP
