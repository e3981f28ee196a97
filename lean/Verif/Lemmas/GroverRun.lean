import Verif.Lemmas.Grover

/-! # The objects made by the Grover example -/

namespace QIP

open Spec Heap Finset

theorem single_ok {m : W (List Nat)} {s s' : WState} {x : Nat} (h : m s = (.ok [x], s')) : single m s = (.ok x, s') := by
  unfold single
  rw [W.bind_ok h]
  rfl

/-- What is known about the objects of the program. -/
structure GroverOK (n x : Nat) (S : WState) (ds da : Nat) : Prop where
  live : ∃ env, Live S.heap env [ds, da]
  width : width S.heap [ds, da] = n + 1
  start : Startable S.heap [ds, da] []
  amp : ∀ r < 2 ^ (n + 1), startAmp S.heap [ds, da] [] r = psi (fun _ => 1 / (√(2 ^ n) : ℝ))
    (fun b => if b then -1 / (√2 : ℝ) else 1 / (√2 : ℝ)) r
  pass : ∀ v, applyAll (n + 1) S.heap [ds, da] (needed S.heap [ds, da]) v = groverPass n x v
  kinds : S.heap.kind ds = .smeasure 0 ∧ S.heap.kind da = .smeasure 0
  groups : (Spec.groups S.heap [ds, da] ds).flatten = List.range n
  last : da = ds + 1 ∧ S.heap.nodes.length = ds + 2

theorem grover_objects {n x : Nat} (hn : 0 < n) (hn30 : n + 1 ≤ 30) :
    ∃ ds da S, grover n x ⟨Heap.empty, [], 0, fun _ => 0⟩ = (.ok (ds, da), S) ∧ GroverOK n x S ds da := by
  -- the registers
  have hd1 : badDefault n (some (.array (searchDefault n))) = false := rfl
  have hd2 : badDefault (1 : Nat) (some (.list ancDefault)) = false := by simp [badDefault, ancDefault]
  obtain ⟨a1, -, b1⟩ := allRegs_push allRegs_empty hn hd1
  have x1 := exec_register (h := Heap.empty) hn hd1
  rw [x1] at a1 b1
  simp only [List.nil_append, List.length_nil] at a1 b1
  set h1 := Heap.empty.push (Heap.empty.newNode .qubit [] (some (n : Int)) none (some (.array (searchDefault n)))) (Heap.empty.newNext none) with hh1
  obtain ⟨a2, c2, b2⟩ := allRegs_push a1 one_pos hd2
  have x2 := exec_register (h := h1) one_pos hd2
  rw [x2] at a2 b2 c2
  simp only [List.singleton_append, List.length_cons, List.length_nil, Nat.zero_add] at a2 b2 c2
  set h2 := h1.push (h1.newNode .qubit [] (some ((1 : Nat) : Int)) none (some (.list ancDefault))) (h1.newNext none) with hh2
  have cur := a2.current (by simp [hn])
  have hr2 : List.range [n, 1].length = [0, 1] := rfl
  rw [hr2] at cur
  have hw2 : width h2 [0, 1] = n + 1 := by have := a2.width; rw [hr2] at this; simpa using this
  have hwq : wires h2 [0, 1] 0 = List.range n := by have := a2.wires (x := 0) (by simp); rw [hr2] at this; simpa using this
  have hwa : wires h2 [0, 1] 1 = [n] := by have := a2.wires (x := 1) (by simp); rw [hr2] at this; simpa using this
  have t0 : Top ⟨h2, [], 0, fun _ => 0⟩ [0, 1] := ⟨rfl, rfl, ⟨_, cur.live⟩, cur.unused⟩
  -- the oracle
  obtain ⟨s1, p1, q1, k1⟩ := t0.fop (a := 0) (b := 1) (rest := []) (by simp) (f := fun i => .ok (if i = x then 1 else 0)) []
    ⟨by rw [hw2]; exact hn30, by
      intro i _
      refine ⟨_, rfl, ?_⟩
      split <;> norm_num, Or.inl (by rw [hw2, hwq, hwa]; simp)⟩
  rw [hwq, hwa] at k1
  have u1 := k1.wires
  simp only [List.map_cons, List.map_nil, List.append_nil, List.cons.injEq, and_true] at u1
  have v1 : width s1.heap [p1, q1] = n + 1 := k1.ev.width.trans hw2
  have t1 : Top s1 [p1, q1] := k1.top
  -- H
  obtain ⟨s2, o2, k2⟩ := t1.op (ins := [p1]) (rest := [q1]) (by simp) (w := .op .h) [] (Or.inl trivial) (by simp [Ctor.spec, OpFits, Gate.withKw])
  obtain ⟨p2, rfl⟩ : ∃ p, o2 = [p] := List.length_eq_one_iff.1 (by have := k2.len; simpa using this)
  have e2 : [p1].map (wires s1.heap [p1, q1]) = [List.range n] := by simp [u1.1]
  rw [e2] at k2
  have u2 := k2.wires
  simp only [List.map_cons, List.map_nil, List.cons.injEq, and_true, List.singleton_append] at u2
  have u2' : wires s2.heap [p2, q1] q1 = [n] := (k2.ev.wires (by simp)).trans u1.2
  have v2 : width s2.heap [p2, q1] = n + 1 := k2.ev.width.trans v1
  have t2 : Top s2 [p2, q1] := k2.top
  -- the oracle of 0
  obtain ⟨s3, p3, q3, k3⟩ := t2.fop (a := p2) (b := q1) (rest := []) (by simp) (f := fun i => .ok (if i = 0 then 1 else 0)) []
    ⟨by rw [v2]; exact hn30, by
      intro i _
      refine ⟨_, rfl, ?_⟩
      split <;> norm_num, Or.inl (by rw [v2, u2, u2']; simp)⟩
  rw [u2, u2'] at k3
  have u3 := k3.wires
  simp only [List.map_cons, List.map_nil, List.append_nil, List.cons.injEq, and_true] at u3
  have v3 : width s3.heap [p3, q3] = n + 1 := k3.ev.width.trans v2
  have t3 : Top s3 [p3, q3] := k3.top
  -- H
  obtain ⟨s4, o4, k4⟩ := t3.op (ins := [p3]) (rest := [q3]) (by simp) (w := .op .h) [] (Or.inl trivial) (by simp [Ctor.spec, OpFits, Gate.withKw])
  obtain ⟨p4, rfl⟩ : ∃ p, o4 = [p] := List.length_eq_one_iff.1 (by have := k4.len; simpa using this)
  have e4 : [p3].map (wires s3.heap [p3, q3]) = [List.range n] := by simp [u3.1]
  rw [e4] at k4
  have u4 := k4.wires
  simp only [List.map_cons, List.map_nil, List.cons.injEq, and_true, List.singleton_append] at u4
  have u4' : wires s4.heap [p4, q3] q3 = [n] := (k4.ev.wires (by simp)).trans u3.2
  have v4 : width s4.heap [p4, q3] = n + 1 := k4.ev.width.trans v3
  have t4 : Top s4 [p4, q3] := k4.top
  -- the reports
  obtain ⟨s5, ds, k5, kd5, in5, ix5, len5⟩ := t4.smeasure (ins := [p4]) (rest := [q3]) (by simp) (by simp)
  have u5 := k5.wires
  simp only [List.map_cons, List.map_nil, List.cons.injEq, and_true, List.singleton_append, List.flatten_cons,
    List.flatten_nil, List.append_nil, u4] at u5
  have v5 : width s5.heap [ds, q3] = n + 1 := k5.ev.width.trans v4
  have t5 : Top s5 [ds, q3] := k5.top
  obtain ⟨s6, da, k6, kd6, in6, ix6, len6⟩ := t5.smeasure (ins := [q3]) (rest := [ds]) (List.Perm.swap _ _ _) (by simp)
  have v6 : width s6.heap [da, ds] = n + 1 := k6.ev.width.trans v5
  have t6 : Top s6 [da, ds] := k6.top
  obtain ⟨env6, l6⟩ := t6.alive
  have e7 := Evolves.perm l6 (List.Perm.swap ds da []) t6.unused
  have hev := (((((k1.ev.trans k2.ev).trans k3.ev).trans k4.ev).trans k5.ev).trans k6.ev).trans e7
  have hb0 : h2.default 0 = some (.array (searchDefault n)) := (c2 0 (by simp)).trans b1
  have hk5 : s6.heap.kind ds = .smeasure 0 := by
    obtain ⟨_, g, -⟩ := k6.ev.grows
    rw [g.ext.kind ds (by omega), kd5]
  have hst : Startable h2 [0, 1] [] := by
    refine ⟨⟨by simp, by simp, by simp⟩, ?_⟩
    intro q hq _
    have := a2.leaves
    rw [hr2] at this
    rw [this] at hq
    simp only [List.mem_cons, List.not_mem_nil, or_false] at hq
    have n0 := a2.n 0 (by simp)
    have n1 := a2.n 1 (by simp)
    simp at n0 n1
    unfold DefaultOK
    rcases hq with rfl | rfl
    · rw [hb0]; simp [searchDefault, n0]
    · rw [b2]; simp [ancDefault, n1]
  refine ⟨ds, da, s6, ?_, ⟨e7.new, e7.width.trans v6, hev.startable hst, ?_, ?_, ?_, ?_, ?_⟩⟩
  · unfold grover
    have r1 : direct (.qubit [] (some (n : Int)) (some (.array (searchDefault n)))) ⟨Heap.empty, [], 0, fun _ => 0⟩
        = (.ok [0], ⟨h1, [], 0, fun _ => 0⟩) := direct_ok x1
    rw [W.bind_ok (single_ok r1)]
    have r2 : direct (.qubit [] (some 1) (some (.list ancDefault))) ⟨h1, [], 0, fun _ => 0⟩
        = (.ok [1], ⟨h2, [], 0, fun _ => 0⟩) := by
      have := direct_ok (s := ⟨h1, [], 0, fun _ => 0⟩) x2
      rw [a1.len] at this
      exact this
    rw [W.bind_ok (single_ok r2)]
    have r3 : groverUw 0 1 x ⟨h2, [], 0, fun _ => 0⟩ = (.ok (p1, q1), s1) := by
      unfold groverUw
      rw [W.bind_ok k1.ret]; rfl
    rw [W.bind_ok r3]
    have r4 : groverUs p1 q1 s1 = (.ok (p4, q3), s4) := by
      unfold groverUs
      rw [W.bind_ok k2.ret]
      dsimp only
      have : groverUw p2 q1 0 s2 = (.ok (p3, q3), s3) := by
        unfold groverUw
        rw [W.bind_ok k3.ret]; rfl
      rw [W.bind_ok this]
      dsimp only
      rw [W.bind_ok k4.ret]; rfl
    rw [W.bind_ok r4]
    dsimp only
    rw [W.bind_ok (single_ok k5.ret), W.bind_ok (single_ok k6.ret)]
    rfl
  · intro r hr
    obtain ⟨_, lo⟩ := hev.old
    obtain ⟨_, ln⟩ := hev.new
    obtain ⟨_, co⟩ := lo.circuit.ctx
    obtain ⟨_, cn⟩ := ln.circuit.ctx
    obtain ⟨_, g, -⟩ := hev.grows
    rw [g.startAmp co cn hst.1]
    unfold startAmp
    have hl := a2.leaves
    rw [hr2] at hl
    simp only [hw2, hl, List.map_nil, List.flatten_nil, List.not_mem_nil, not_false_eq_true, decide_true, List.prod_nil,
      one_mul, List.filter_true, List.map_cons, List.prod_cons, mul_one, hwq, hwa, subIndex_high hr, subIndex_single, pow_one]
    unfold startVec psi
    have hlt : r / 2 < 2 ^ n := by rw [pow_succ] at hr; omega
    simp only [hb0, b2, qbit_last]
    congr 1
    · unfold searchDefault
      rw [List.getD_eq_getElem _ _ (by simpa using hlt), List.getElem_replicate]
    · unfold ancDefault
      by_cases h : r % 2 = 1 <;> simp [h]
  · intro v
    have := hev.state (n + 1) v
    rw [this]
    have ha := a2.applyAll (n + 1) v
    rw [hr2] at ha
    rw [ha]
    rfl
  · exact ⟨hk5, kd6⟩
  · have w6 : wires s6.heap [ds, da] ds = List.range n :=
      (e7.wires (by simp)).trans ((k6.ev.wires (by simp)).trans u5)
    obtain ⟨_, ln⟩ := e7.new
    obtain ⟨_, cn⟩ := ln.circuit.ctx
    have hin : s6.heap.inputs ds ≠ [] := by
      obtain ⟨_, g, -⟩ := k6.ev.grows
      rw [g.ext.inputs ds (by omega), in5]
      simp
    rw [wires_node hin (cn.ilt (.arg (by simp))), hk5] at w6
    exact w6
  · omega

end QIP
