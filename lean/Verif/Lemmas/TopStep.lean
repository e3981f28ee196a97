import Verif.Lemmas.Ready

/-! # Steps of a program outside contexts -/

namespace QIP

open Spec Heap

/-- The program is outside all contexts and `live` are its current qubits. -/
structure Top (s : WState) (live : List Nat) : Prop where
  stack : s.stack = []
  total : s.total = 0
  alive : ∃ env, Live s.heap env live
  unused : ∀ x ∈ live, s.heap.sinks x = []

/-- The call `m` takes `ins` and returns `outs`, holding the qubits `W`; `T` has been done to the state. -/
structure Call (s : WState) (live ins rest : List Nat) (r : Except PyErr (List Nat) × WState) (W : List (List Nat))
    (T : Nat → (Nat → ℂ) → Nat → ℂ) (s' : WState) (outs : List Nat) : Prop where
  ret : r = (.ok outs, s')
  len : outs.length = W.length
  top : Top s' (outs ++ rest)
  wires : outs.map (Spec.wires s'.heap (outs ++ rest)) = W
  ev : Evolves s.heap live s'.heap (outs ++ rest) T
  wraps : s'.wraps = s.wraps

theorem Call.of_step {s : WState} {live ins rest : List Nat} (t : Top s live) (hp : live.Perm (ins ++ rest)) {h' : Heap}
    {outs : List Nat} {W : List (List Nat)} {T : Nat → (Nat → ℂ) → Nat → ℂ}
    (st : Stepped s.heap live ins rest h' outs W T) {r : Except PyErr (List Nat) × WState}
    (hr : r = (.ok outs, { s with heap := h' })) :
    Call s live ins rest r W T { s with heap := h' } outs := by
  obtain ⟨env, l⟩ := t.alive
  have e := Evolves.of_step l hp t.unused st
  refine ⟨hr, ?_, ⟨t.stack, t.total, st.live', e.unused⟩, st.wires, e, rfl⟩
  rw [← st.wires, List.length_map]

theorem Call.congr {s s' : WState} {live ins rest outs : List Nat} {r : Except PyErr (List Nat) × WState}
    {W W' : List (List Nat)} {T T' : Nat → (Nat → ℂ) → Nat → ℂ} (c : Call s live ins rest r W T s' outs) (hW : W = W')
    (hT : ∀ n v, T n v = T' n v) : Call s live ins rest r W' T' s' outs := by
  subst hW
  exact ⟨c.ret, c.len, c.top, c.wires, c.ev.congr hT, c.wraps⟩

/-- A wrapped gate. -/
theorem Top.op {s : WState} {live ins rest : List Nat} (t : Top s live) (hp : live.Perm (ins ++ rest)) {w : Ctor}
    (kw : List Kwd) (hw : w.Closed ∨ ∃ g, w = .param g) (hf : OpFits w.spec (ins.map s.heap.n)) :
    ∃ s' outs, Call s live ins rest (callWrapper w kw ins s) (ins.map (wires s.heap live))
      (fun n => gateApply n (opGate w.spec (ins.map s.heap.n)) (ins.map (wires s.heap live))) s' outs := by
  obtain ⟨env, l⟩ := t.alive
  obtain ⟨cs', outs, h', st', r, a, b, c, d, stp⟩ := wrap_step (kw := kw) (cs := []) (s := s) (rest := rest) (ins := ins)
    ⟨by rw [t.stack]; rfl, by rw [t.total]; rfl⟩ l hp (by simp) (hw.imp id fun h => ⟨rfl, h⟩) hf
  have hcs : cs' = [] := List.length_eq_zero_iff.1 c
  subst hcs
  have hst : st' = s.stack := by
    rw [t.stack] at a ⊢
    simpa using a
  subst hst
  refine ⟨_, outs, (Call.of_step t hp stp r).congr rfl fun n v => ?_⟩
  funext r
  simp [Act.apply]

/-- `F(f, a, b)`. -/
theorem Top.fop {s : WState} {live rest : List Nat} {a b : Nat} (t : Top s live) (hp : live.Perm ([a, b] ++ rest))
    {f : Nat → Except PyErr Int} (kw : List Kwd)
    (hK : KindFits (width s.heap live) [wires s.heap live a, wires s.heap live b] (.fop f)) :
    ∃ s' x y, Call s live [a, b] rest (callWrapper (.fop f) kw [a, b] s) [wires s.heap live a, wires s.heap live b]
      (fun n => kindApply n (.fop f) [wires s.heap live a, wires s.heap live b]) s' [x, y] := by
  obtain ⟨env, l⟩ := t.alive
  obtain ⟨x, h1, outs, h2, r1, r2, stp⟩ := fop_step l hp hK
  have hlen : outs.length = 2 := by have := congrArg List.length stp.wires; simpa using this
  obtain ⟨u, v, rfl⟩ := List.length_eq_two.1 hlen
  refine ⟨_, u, v, Call.of_step t hp stp ?_⟩
  have happ : applyInContext (.fop f) ((Ctor.fop f).positional [a, b]) s = (.ok [u, v], { s with heap := h2 }) := by
    unfold applyInContext
    have hst : ¬ 0 < s.stack.length := by rw [t.stack]; simp
    simp only [hst, decide_false, Bool.false_eq_true, ↓reduceIte]
    have : constructArgs s.heap (.fop f) (wrapperKw [] []) ((Ctor.fop f).positional [a, b])
        = s.heap.construct (.fop f) false [a, b] := by
      unfold constructArgs Ctor.positional
      rfl
    rw [this, r1]
    simp only
    rw [r2]
  unfold callWrapper
  rw [W.bind_ok happ]
  rfl

/-- `StochasticMeasure(*ins)`. -/
theorem Top.smeasure {s : WState} {live ins rest : List Nat} (t : Top s live) (hp : live.Perm (ins ++ rest))
    (hne : ins ≠ []) :
    ∃ s' x, Call s live ins rest (direct (.smeasure ins 0) s) [(ins.map (wires s.heap live)).flatten] (fun _ v => v) s' [x] ∧
      s'.heap.kind x = .smeasure 0 ∧ s'.heap.inputs x = ins ∧ x = s.heap.nodes.length ∧ s'.heap.nodes.length = x + 1 := by
  obtain ⟨env, l⟩ := t.alive
  obtain ⟨x, h', r, k, stp⟩ := smeasure_step l hp hne
  exact ⟨_, x, Call.of_step t hp stp (direct_ok r), k⟩

/-- `Qubit(*ins)`. -/
theorem Top.join {s : WState} {live ins rest : List Nat} (t : Top s live) (hp : live.Perm (ins ++ rest))
    (hne : ins ≠ []) :
    ∃ s' x, Call s live ins rest (direct (.qubit ins none none) s) [(ins.map (wires s.heap live)).flatten] (fun _ v => v)
      s' [x] := by
  obtain ⟨env, l⟩ := t.alive
  obtain ⟨x, h', r, stp⟩ := join_step l hp hne fun y hy => t.unused y (hp.mem_iff.2 (List.mem_append_left _ hy))
  exact ⟨_, x, Call.of_step t hp stp (direct_ok r)⟩

theorem Call.perm {s s' : WState} {live ins rest outs : List Nat} {r : Except PyErr (List Nat) × WState}
    {W : List (List Nat)} {T : Nat → (Nat → ℂ) → Nat → ℂ} (_ : Call s live ins rest r W T s' outs) {live' : List Nat}
    (hp : (outs ++ rest).Perm live') (t : Top s' (outs ++ rest)) :
    Top s' live' ∧ ∀ x ∈ outs ++ rest, Spec.wires s'.heap live' x = Spec.wires s'.heap (outs ++ rest) x := by
  obtain ⟨env, l⟩ := t.alive
  exact ⟨⟨t.stack, t.total, ⟨env, l.perm hp⟩, fun x hx => t.unused x (hp.mem_iff.2 hx)⟩,
    fun x hx => wires_perm l hp t.unused x hx⟩

end QIP
