import Verif.Lemmas.Outputs

/-! # Steps of a program inside controls -/

namespace QIP

open Spec Heap

/-- The program holds the unused qubits `qs`, inside controls by the qubits `cs`; `rest` are the other ones. -/
structure Ready (s : WState) (cs live qs rest : List Nat) : Prop where
  ctl : InCtl s cs
  alive : ∃ env, Live s.heap env live
  perm : live.Perm (cs ++ qs ++ rest)
  unused : ∀ x ∈ live, s.heap.sinks x = []
  one : ∀ x ∈ cs, s.heap.n x = 1

/-- What has happened in between. -/
structure Moved (s : WState) (cs live : List Nat) (s' : WState) (cs' live' : List Nat) (acts : List Act) : Prop where
  total : s'.total = s.total
  wraps : s'.wraps = s.wraps
  stack : s'.stack.map List.length = s.stack.map List.length
  ev : Evolves s.heap live s'.heap live' fun n => actAll n (acts.map (Act.more (cs.map (wires s.heap live)).flatten))
  wcs : cs'.map (wires s'.heap live') = cs.map (wires s.heap live)

theorem Ready.reperm {s : WState} {cs live qs rest qs' rest' : List Nat} (r : Ready s cs live qs rest)
    (h : (qs ++ rest).Perm (qs' ++ rest')) : Ready s cs live qs' rest' :=
  ⟨r.ctl, r.alive, r.perm.trans (by rw [List.append_assoc, List.append_assoc]; exact h.append_left cs), r.unused, r.one⟩

theorem Ready.mem {s : WState} {cs live qs rest : List Nat} (r : Ready s cs live qs rest) {x : Nat} (hx : x ∈ qs) :
    x ∈ live := r.perm.mem_iff.2 (by simp [hx])

theorem Ready.memc {s : WState} {cs live qs rest : List Nat} (r : Ready s cs live qs rest) {x : Nat} (hx : x ∈ cs) :
    x ∈ live := r.perm.mem_iff.2 (by simp [hx])

theorem Ready.memr {s : WState} {cs live qs rest : List Nat} (r : Ready s cs live qs rest) {x : Nat} (hx : x ∈ rest) :
    x ∈ live := r.perm.mem_iff.2 (by simp [hx])

theorem Ready.n {s : WState} {cs live qs rest : List Nat} (r : Ready s cs live qs rest) {x : Nat} (hx : x ∈ live) :
    (wires s.heap live x).length = s.heap.n x := by
  obtain ⟨_, l⟩ := r.alive
  obtain ⟨_, c⟩ := l.circuit.ctx
  exact c.len (.arg hx)

theorem Moved.one {s s' : WState} {cs live qs rest cs' live' : List Nat} {acts : List Act} (r : Ready s cs live qs rest)
    (m : Moved s cs live s' cs' live' acts) (hc : ∀ x ∈ cs', x ∈ live') : ∀ x ∈ cs', s'.heap.n x = 1 := by
  intro x hx
  obtain ⟨_, l⟩ := m.ev.new
  obtain ⟨_, c⟩ := l.circuit.ctx
  rw [← c.len (.arg (hc x hx))]
  have : wires s'.heap live' x ∈ cs.map (wires s.heap live) := by rw [← m.wcs]; exact List.mem_map.2 ⟨x, hx, rfl⟩
  obtain ⟨y, hy, hyx⟩ := List.mem_map.1 this
  rw [← hyx, r.n (r.memc hy), r.one y hy]

theorem Moved.refl {s : WState} {cs live qs rest : List Nat} (r : Ready s cs live qs rest) :
    Moved s cs live s cs live [] := by
  obtain ⟨_, l⟩ := r.alive
  exact ⟨rfl, rfl, rfl, Evolves.refl l r.unused, rfl⟩

theorem Moved.trans {s s1 s2 : WState} {cs live cs1 live1 cs2 live2 : List Nat} {a b : List Act}
    (m1 : Moved s cs live s1 cs1 live1 a) (m2 : Moved s1 cs1 live1 s2 cs2 live2 b) :
    Moved s cs live s2 cs2 live2 (a ++ b) := by
  refine ⟨m2.total.trans m1.total, m2.wraps.trans m1.wraps, m2.stack.trans m1.stack, ?_, m2.wcs.trans m1.wcs⟩
  refine (m1.ev.trans m2.ev).congr fun n v => ?_
  rw [m1.wcs, List.map_append, actAll_append]

theorem Moved.ready {s s' : WState} {cs live qs rest cs' live' qs' rest' : List Nat} {acts : List Act}
    (r : Ready s cs live qs rest) (m : Moved s cs live s' cs' live' acts) (hf : s'.stack.flatten = cs'.map ctl)
    (hp : live'.Perm (cs' ++ qs' ++ rest')) : Ready s' cs' live' qs' rest' := by
  have hlen : cs'.length = cs.length := by simpa using congrArg List.length m.wcs
  exact ⟨⟨hf, by rw [m.total, r.ctl.total, hlen]⟩, m.ev.new, hp, m.ev.unused,
    m.one r fun x hx => hp.mem_iff.2 (by simp [hx])⟩

/-- A wrapped operation on some of the qubits. -/
theorem Ready.op {s : WState} {cs live ins left : List Nat} (r : Ready s cs live ins left) {w : Ctor}
    (hw : w.Closed) (hf : OpFits w.spec (ins.map s.heap.n)) :
    ∃ s' cs' outs, callWrapper w [] ins s = (.ok outs, s') ∧ outs.length = ins.length ∧
      Ready s' cs' (cs' ++ outs ++ left) outs left ∧
      Moved s cs live s' cs' (cs' ++ outs ++ left)
        [⟨[], opGate w.spec (ins.map s.heap.n), ins.map (wires s.heap live)⟩] ∧
      outs.map (wires s'.heap (cs' ++ outs ++ left)) = ins.map (wires s.heap live) := by
  obtain ⟨env, l⟩ := r.alive
  obtain ⟨cs1, o1, h1, st1, r1, a1, b1, c1, d1, stp⟩ := wrap_step (kw := []) r.ctl l r.perm r.one (Or.inl hw) hf
  have e1 := Evolves.of_step l r.perm r.unused stp
  have hwi := stp.wires
  rw [List.map_append, List.map_append] at hwi
  obtain ⟨hw1, hw2⟩ := List.append_inj hwi (by simp [c1])
  have m : Moved s cs live ⟨h1, st1, s.total, s.wraps⟩ cs1 (cs1 ++ o1 ++ left)
      [⟨[], opGate w.spec (ins.map s.heap.n), ins.map (wires s.heap live)⟩] :=
    ⟨rfl, rfl, a1, e1.congr fun n v => by simp [actAll, Act.more], hw1⟩
  exact ⟨⟨h1, st1, s.total, s.wraps⟩, cs1, o1, r1, d1, m.ready r b1 (List.Perm.refl _), m, hw2⟩

theorem leave_set {α : Type} (l : List α) (pos : List Nat) {i : Nat} (hi : i ∈ pos) (a : α) :
    leave pos (l.set i a) = leave pos l := by
  unfold leave pick
  rw [List.length_set]
  apply List.filterMap_congr
  intro j hj
  have : j ≠ i := by rintro rfl; simp [hi] at hj
  rw [List.getElem?_set_ne (Ne.symm this)]

theorem perm_set1 {l : List Nat} {i : Nat} (hi : i < l.length) (a : Nat) :
    l.Perm ([l.getD i 0] ++ leave [i] l) ∧ (l.set i a).Perm ([a] ++ leave [i] l) := by
  have h0 : PosOK [i] l.length := ⟨by simp, by simpa using hi⟩
  refine ⟨?_, ?_⟩
  · have := pick_perm h0; rwa [pick_one hi] at this
  · have := pick_perm (l := l.set i a) (pos := [i]) (by simpa using h0)
    rw [pick_one (by simpa using hi), leave_set l [i] (by simp)] at this
    simpa [List.getElem?_set, hi] using this

theorem pick_two {l : List Nat} {i j : Nat} (hi : i < l.length) (hj : j < l.length) :
    pick [i, j] l = [l.getD i 0, l.getD j 0] := by
  unfold pick
  rw [List.filterMap_cons_some (List.getElem?_eq_getElem hi), List.getD_eq_getElem _ _ hi,
    List.filterMap_cons_some (List.getElem?_eq_getElem hj), List.getD_eq_getElem _ _ hj]
  rfl

theorem perm_set2 {l : List Nat} {i j : Nat} (hi : i < l.length) (hj : j < l.length) (hij : i ≠ j) (a b : Nat) :
    l.Perm ([l.getD i 0, l.getD j 0] ++ leave [i, j] l) ∧ ((l.set i a).set j b).Perm ([a, b] ++ leave [i, j] l) := by
  have h0 : PosOK [i, j] l.length := ⟨by simp [hij], by simp [hi, hj]⟩
  refine ⟨?_, ?_⟩
  · have := pick_perm h0; rwa [pick_two hi hj] at this
  · have := pick_perm (l := (l.set i a).set j b) (pos := [i, j]) (by simpa using h0)
    rw [pick_two (by simpa using hi) (by simpa using hj), leave_set _ [i, j] (by simp), leave_set _ [i, j] (by simp)] at this
    have e1 : ((l.set i a).set j b).getD i 0 = a := by
      rw [List.getD_eq_getElem _ _ (by simpa using hi)]
      rw [List.getElem_set_ne hij.symm, List.getElem_set_self]
    have e2 : ((l.set i a).set j b).getD j 0 = b := by
      rw [List.getD_eq_getElem _ _ (by simpa using hj)]
      rw [List.getElem_set_self]
    rwa [e1, e2] at this

/-- A wrapped operation on one qubit of a list, put back into the list. -/
theorem Ready.op1 {s : WState} {cs live qs rest : List Nat} (r : Ready s cs live qs rest) {w : Ctor} {i : Nat}
    (hi : i < qs.length) (hw : w.Closed) (hf : OpFits w.spec [s.heap.n (qs.getD i 0)]) :
    ∃ s' cs' live' a, callWrapper w [] [qs.getD i 0] s = (.ok [a], s') ∧ Ready s' cs' live' (qs.set i a) rest ∧
      Moved s cs live s' cs' live' [⟨[], opGate w.spec [s.heap.n (qs.getD i 0)], [wires s.heap live (qs.getD i 0)]⟩] ∧
      (qs.set i a).map (wires s'.heap live') = qs.map (wires s.heap live) := by
  have r0 : Ready s cs live [qs.getD i 0] (leave [i] qs ++ rest) := r.reperm (by
    rw [← List.append_assoc]; exact ((perm_set1 hi 0).1).append_right rest)
  obtain ⟨s', cs', outs, h1, h2, h3, h4, h5⟩ := r0.op hw hf
  obtain ⟨a, rfl⟩ := List.length_eq_one_iff.1 h2
  refine ⟨s', cs', _, a, h1, h3.reperm ?_, h4, ?_⟩
  · rw [← List.append_assoc]; exact ((perm_set1 hi a).2.symm).append_right rest
  · rw [List.map_set]
    have hm : qs.map (wires s'.heap (cs' ++ [a] ++ (leave [i] qs ++ rest))) = qs.map (wires s.heap live) :=
      h4.ev.map_wires fun x hx => r.mem hx
    rw [hm]
    simp only [List.map_cons, List.map_nil, List.cons.injEq, and_true] at h5
    rw [h5, ← List.map_set, List.getD_eq_getElem _ _ hi, List.set_getElem_self]

/-- A wrapped operation on two qubits of a list, put back into the list. -/
theorem Ready.op2 {s : WState} {cs live qs rest : List Nat} (r : Ready s cs live qs rest) {w : Ctor} {i j : Nat}
    (hi : i < qs.length) (hj : j < qs.length) (hij : i ≠ j) (hw : w.Closed)
    (hf : OpFits w.spec [s.heap.n (qs.getD i 0), s.heap.n (qs.getD j 0)]) :
    ∃ s' cs' live' a b, callWrapper w [] [qs.getD i 0, qs.getD j 0] s = (.ok [a, b], s') ∧
      Ready s' cs' live' ((qs.set i a).set j b) rest ∧
      Moved s cs live s' cs' live' [⟨[], opGate w.spec [s.heap.n (qs.getD i 0), s.heap.n (qs.getD j 0)],
        [wires s.heap live (qs.getD i 0), wires s.heap live (qs.getD j 0)]⟩] ∧
      ((qs.set i a).set j b).map (wires s'.heap live') = qs.map (wires s.heap live) := by
  have r0 : Ready s cs live [qs.getD i 0, qs.getD j 0] (leave [i, j] qs ++ rest) := r.reperm (by
    rw [← List.append_assoc]; exact ((perm_set2 hi hj hij 0 0).1).append_right rest)
  obtain ⟨s', cs', outs, h1, h2, h3, h4, h5⟩ := r0.op hw hf
  obtain ⟨a, b, rfl⟩ := List.length_eq_two.1 h2
  refine ⟨s', cs', _, a, b, h1, h3.reperm ?_, h4, ?_⟩
  · rw [← List.append_assoc]; exact ((perm_set2 hi hj hij a b).2.symm).append_right rest
  · have hm : qs.map (wires s'.heap (cs' ++ [a, b] ++ (leave [i, j] qs ++ rest))) = qs.map (wires s.heap live) :=
      h4.ev.map_wires fun x hx => r.mem hx
    simp only [List.map_cons, List.map_nil, List.cons.injEq, and_true] at h5
    rw [List.map_set, List.map_set, hm, h5.1, h5.2, ← List.map_set, List.getD_eq_getElem _ _ hi, List.set_getElem_self,
      ← List.map_set, List.getD_eq_getElem _ _ hj, List.set_getElem_self]

/-- A split of a qubit. -/
theorem Ready.split {s : WState} {cs live rest : List Nat} {q : Nat} (r : Ready s cs live [q] rest) {bs : List Int}
    (hr : ∀ b ∈ bs, 0 ≤ b ∧ b ≤ s.heap.n q) (hnd : bs.Nodup) :
    ∃ s' live' outs, direct (.split q (some bs)) s = (.ok outs, s') ∧ Ready s' cs live' outs rest ∧
      Moved s cs live s' cs live' [] ∧ outs.map (wires s'.heap live') = parts (wires s.heap live q) bs := by
  obtain ⟨env, l⟩ := r.alive
  have hp : live.Perm ([q] ++ (cs ++ rest)) := r.perm.trans (by
    rw [List.perm_iff_count]; intro a; simp only [List.count_append]; omega)
  obtain ⟨outs, h', cuts, h1, hcuts, stp⟩ := split_step l hp hr hnd
  have hlen := r.n (r.mem (x := q) (by simp))
  have hcl := cutList_eq (fun b hb => (hr b hb).2) hcuts
  have hW : ((List.range (cuts.length - 1)).map fun i =>
      slice (wires s.heap live q) (cuts.getD i 0) (cuts.getD (i + 1) 0)) = parts (wires s.heap live q) bs := by
    unfold parts
    rw [hlen, hcl]
  have e0 := Evolves.of_step l hp r.unused stp
  have m : Moved s cs live { s with heap := h' } cs (outs ++ (cs ++ rest)) [] :=
    ⟨rfl, rfl, rfl, e0.congr fun _ _ => rfl, e0.map_wires fun x hx => r.memc hx⟩
  refine ⟨{ s with heap := h' }, _, outs, direct_ok h1, m.ready r r.ctl.flat ?_, m, ?_⟩
  · rw [List.perm_iff_count]; intro a; simp only [List.count_append]; omega
  · rw [← hW, ← stp.wires]

/-- A join of qubits. -/
theorem Ready.join {s : WState} {cs live ins rest : List Nat} (r : Ready s cs live ins rest) (hne : ins ≠ []) :
    ∃ s' live' x, direct (.qubit ins none none) s = (.ok [x], s') ∧ Ready s' cs live' [x] rest ∧
      Moved s cs live s' cs live' [] ∧ wires s'.heap live' x = (ins.map (wires s.heap live)).flatten := by
  obtain ⟨env, l⟩ := r.alive
  have hp : live.Perm (ins ++ (cs ++ rest)) := r.perm.trans (by
    rw [List.perm_iff_count]; intro a; simp only [List.count_append]; omega)
  obtain ⟨x, h', h1, stp⟩ := join_step l hp hne fun y hy => r.unused y (r.mem hy)
  have e0 := Evolves.of_step l hp r.unused stp
  have m : Moved s cs live { s with heap := h' } cs ([x] ++ (cs ++ rest)) [] :=
    ⟨rfl, rfl, rfl, e0.congr fun _ _ => rfl, e0.map_wires fun x hx => r.memc hx⟩
  refine ⟨{ s with heap := h' }, _, x, direct_ok h1, m.ready r r.ctl.flat ?_, m, ?_⟩
  · rw [List.perm_iff_count]; intro a; simp only [List.count_append]; omega
  · have := stp.wires
    simpa using this

theorem Moved.toRan {s s' : WState} {cs live rest cs' live' outs : List Nat} {acts : List Act}
    (m : Moved s cs live s' cs' live' acts) (r' : Ready s' cs' live' outs rest) :
    Ran s cs live rest (.ok outs, s') (outs.map (wires s'.heap live')) acts := by
  have hp : live'.Perm (cs' ++ outs ++ ([] ++ rest)) := by simpa using r'.perm
  obtain ⟨_, l'⟩ := r'.alive
  refine ⟨cs', outs, [], s'.heap, s'.stack, ?_, m.stack, r'.ctl.flat, m.ev.mem_perm hp, ?_, ?_⟩
  · rw [← m.total, ← m.wraps]
  · rw [← m.wcs]
    exact List.map_congr_left fun x hx => wires_perm l' hp r'.unused x (r'.memc hx)
  · exact List.map_congr_left fun x hx => wires_perm l' hp r'.unused x (r'.mem hx)

end QIP
