import Verif.Lemmas.Evolve

/-! # Wrapped operations inside contexts of controls -/

namespace QIP

open Spec Heap

theorem W.bind_ok {α β : Type} {m : W α} {f : α → W β} {s s' : WState} {a : α} (h : m s = (.ok a, s')) :
    (m >>= f) s = f a s' := by
  change (match m s with
    | (.ok a, s') => f a s'
    | (.error e, s') => (.error e, s')) = _
  rw [h]

theorem W.bind_error {α β : Type} {m : W α} {f : α → W β} {s s' : WState} {e : PyErr} (h : m s = (.error e, s')) :
    (m >>= f) s = (.error e, s') := by
  change (match m s with
    | (.ok a, s') => f a s'
    | (.error e, s') => (.error e, s')) = _
  rw [h]

/-- The entry made by `C(f)`. -/
def ctl (q : Nat) : Entry := ⟨1, [q], [0]⟩

theorem putInOrder_ctl {α : Type} (f : Nat → α) (cs : List Nat) (l : List α) :
    putInOrder f (cs.map ctl) l = cs.map f ++ l := by
  unfold putInOrder
  rw [← List.map_reverse]
  induction cs generalizing l with
  | nil => rfl
  | cons c cs ih =>
    rw [List.reverse_cons, List.map_append, List.foldl_append, ih]
    rfl

theorem contextCtor_ctl (cs : List Nat) (w : Ctor) : contextCtor (cs.map ctl) w = Ctor.c^[cs.length] w := by
  unfold contextCtor
  rw [← List.map_reverse]
  induction cs with
  | nil => rfl
  | cons c cs ih =>
    rw [List.reverse_cons, List.map_append, List.foldl_append, ih, List.length_cons, Function.iterate_succ_apply']
    rfl

theorem indices_ctl (cs : List Nat) : (cs.map ctl).flatMap (·.indices) = List.replicate cs.length 0 := by
  induction cs with
  | nil => rfl
  | cons c cs ih => rw [List.map_cons, List.flatMap_cons, ih]; rfl

theorem popAll_zeros (a b : List Nat) : popAll (List.replicate a.length 0) (a ++ b) = .ok (a, b) := by
  induction a with
  | nil => rfl
  | cons x a ih => simp [List.replicate_succ, popAll, ih]

theorem setEntries_ctl (a b l : List Nat) (hl : a.length = b.length) :
    setEntries (a.map ctl) (b ++ l) = (b.map ctl, l) := by
  induction a generalizing b with
  | nil => match b, hl with | [], _ => rfl
  | cons x a ih =>
    match b, hl with
    | y :: b, hl =>
      simp only [List.length_cons, Nat.add_right_cancel_iff] at hl
      have := ih b hl
      simp only [List.map_cons, setEntries, List.cons_append]
      simp [ctl, this] at *

theorem setStack_ctl (st : List (List Entry)) (cs cs' : List Nat) (hf : st.flatten = cs.map ctl)
    (hl : cs.length = cs'.length) : (setStack st cs').flatten = cs'.map ctl ∧
      (setStack st cs').map List.length = st.map List.length := by
  induction st generalizing cs cs' with
  | nil =>
    have : cs = [] := by simpa using hf.symm
    subst this
    match cs', hl with | [], _ => exact ⟨rfl, rfl⟩
  | cons es st ih =>
    rw [List.flatten_cons] at hf
    obtain ⟨a, b, rfl, h1, h2⟩ := List.map_eq_append_iff.1 hf.symm
    have e1 := List.take_append_drop a.length cs'
    have ht : (cs'.take a.length).length = a.length := by
      rw [List.length_take]; simp at hl; omega
    have hd : (cs'.drop a.length).length = b.length := by
      rw [List.length_drop]; simp at hl; omega
    have h3 : setEntries es cs' = ((cs'.take a.length).map ctl, cs'.drop a.length) := by
      conv_lhs => rw [← h1, ← e1]
      exact setEntries_ctl a _ _ ht.symm
    obtain ⟨i1, i2⟩ := ih b (cs'.drop a.length) h2.symm hd.symm
    simp only [setStack, h3, List.flatten_cons, List.map_cons, i1, i2]
    refine ⟨?_, ?_⟩
    · rw [← List.map_append, e1]
    · rw [← h1, List.length_map, List.length_map, ht]

theorem spec_iterate (k : Nat) (w : Ctor) : (Ctor.c^[k] w).spec = OpSpec.c^[k] w.spec := by
  induction k with
  | zero => rfl
  | succ k ih => rw [Function.iterate_succ_apply', Function.iterate_succ_apply', ← ih]; rfl

theorem closed_iterate (k : Nat) {w : Ctor} (hw : w.Closed) : (Ctor.c^[k] w).Closed := by
  induction k with
  | zero => exact hw
  | succ k ih => rw [Function.iterate_succ_apply']; exact ih

theorem opFits_iterate (cs : List Nat) (h1 : ∀ c ∈ cs, c = 1) {op : OpSpec} {ns : List Nat} (hf : OpFits op ns) :
    OpFits (OpSpec.c^[cs.length] op) (cs ++ ns) := by
  induction cs with
  | nil => exact hf
  | cons c cs ih =>
    rw [List.length_cons, Function.iterate_succ_apply']
    have := ih fun x hx => h1 x (by simp [hx])
    exact ⟨cs ++ ns, by rw [h1 c (by simp)]; rfl, opFits_ne this, this⟩

theorem gateApply_iterate (n : Nat) (cs : List (List Nat)) (h1 : ∀ c ∈ cs, c.length = 1) (op : OpSpec)
    (gs : List (List Nat)) (v : Nat → ℂ) :
    gateApply n (opGate (OpSpec.c^[cs.length] op) ((cs ++ gs).map List.length)) (cs ++ gs) v
      = (Act.apply n ⟨cs.flatten, opGate op (gs.map List.length), gs⟩ v) := by
  induction cs with
  | nil => funext r; simp [Act.apply]
  | cons c cs ih =>
    have ih := ih fun x hx => h1 x (by simp [hx])
    obtain ⟨q, rfl⟩ := List.length_eq_one_iff.1 (h1 c (by simp))
    rw [List.length_cons, Function.iterate_succ_apply']
    funext r
    simp only [opGate, List.cons_append, List.map_cons, List.tail_cons, gateApply, List.getD_cons_zero]
    rw [ih]
    unfold Act.apply
    simp only [List.flatten_cons, List.cons_append, List.nil_append, List.mem_cons, forall_eq_or_imp]
    by_cases hq : qbit n r q = true
    · rw [if_pos hq]; exact if_congr (by simp [hq]) rfl rfl
    · rw [if_neg hq, if_neg fun h => hq h.1]

/-- The context is that of nested controlled circuit functions, with control qubits `cs` (outermost first). -/
structure InCtl (s : WState) (cs : List Nat) : Prop where
  flat : s.stack.flatten = cs.map ctl
  total : s.total = cs.length

theorem wrap_step {s : WState} {cs env live ins rest : List Nat} {w : Ctor} {kw : List Kwd} (hc : InCtl s cs)
    (l : Live s.heap env live) (hperm : live.Perm (cs ++ ins ++ rest)) (hone : ∀ c ∈ cs, s.heap.n c = 1)
    (hw : w.Closed ∨ (cs = [] ∧ ∃ g, w = .param g)) (hf : OpFits w.spec (ins.map s.heap.n)) :
    ∃ cs' outs h' st', callWrapper w kw ins s = (.ok outs, ⟨h', st', s.total, s.wraps⟩) ∧
      st'.map List.length = s.stack.map List.length ∧ st'.flatten = cs'.map ctl ∧ cs'.length = cs.length ∧
      outs.length = ins.length ∧
      Stepped s.heap live (cs ++ ins) rest h' (cs' ++ outs) ((cs ++ ins).map (wires s.heap live))
        (fun n => Act.apply n ⟨(cs.map (wires s.heap live)).flatten, opGate w.spec (ins.map s.heap.n),
          ins.map (wires s.heap live)⟩) := by
  have hlive : ∀ x ∈ cs ++ ins, x ∈ live := fun x hx => hperm.mem_iff.2 (List.mem_append_left _ hx)
  have hsz := l.sizes hlive
  rw [List.map_append, List.map_append] at hsz
  have hfit : OpFits (OpSpec.c^[cs.length] w.spec) ((cs ++ ins).map s.heap.n) := by
    rw [List.map_append]
    have := opFits_iterate (cs.map s.heap.n) (by simpa using hone) hf
    rwa [List.length_map] at this
  obtain ⟨x, h1, o, h2, r1, r2, st⟩ := op_step l hperm hfit
  have hol : o.length = (cs ++ ins).length := by
    have := congrArg List.length st.wires
    simpa using this
  set cs' := o.take cs.length with hcs'
  set outs := o.drop cs.length with houts
  have ho : cs' ++ outs = o := List.take_append_drop _ _
  have hl1 : cs'.length = cs.length := by rw [hcs', List.length_take]; simp at hol; omega
  have hl2 : outs.length = ins.length := by rw [houts, List.length_drop]; simp at hol; omega
  have hins : 0 < ins.length := by
    have := opFits_ne hf
    rcases ins with _ | ⟨a, t⟩
    · simp at this
    · simp
  have hcall : ∀ st', applyInContext w (w.positional ins) s = (.ok outs, ⟨h2, st', s.total, s.wraps⟩) →
      callWrapper w kw ins s = (.ok outs, ⟨h2, st', s.total, s.wraps⟩) := by
    intro st' he
    unfold callWrapper
    rw [W.bind_ok he, if_neg (by omega)]
    rfl
  have hargs : constructArgs s.heap (Ctor.c^[cs.length] w) [] (cs.map some ++ w.positional ins)
      = s.heap.construct (OpSpec.c^[cs.length] w.spec) false (cs ++ ins) := by
    rcases hw with hw | ⟨rfl, g, rfl⟩
    · rw [positional_closed hw, ← List.map_append, constructArgs_closed (closed_iterate _ hw), spec_iterate]
    · exact constructArgs_positional (.param g) (Or.inr (Or.inl ⟨g, rfl⟩)) s.heap ins
  have hstep : Stepped s.heap live (cs ++ ins) rest h2 (cs' ++ outs) ((cs ++ ins).map (wires s.heap live))
        (fun n => Act.apply n ⟨(cs.map (wires s.heap live)).flatten, opGate w.spec (ins.map s.heap.n),
          ins.map (wires s.heap live)⟩) := by
    rw [ho]
    refine ⟨st.live', ?_, st.wires, st.free, st.keep⟩
    obtain ⟨new, g, t⟩ := st.grows
    refine ⟨new, g, fun n v => ?_⟩
    rw [t n v]
    have h1' : ∀ c ∈ cs.map (wires s.heap live), c.length = 1 := by
      intro c hc
      obtain ⟨y, hy, rfl⟩ := List.mem_map.1 hc
      obtain ⟨_, ctx⟩ := l.circuit.ctx
      rw [ctx.len (.arg (hlive y (by simp [hy]))), hone y hy]
    have := gateApply_iterate n (cs.map (wires s.heap live)) h1' w.spec (ins.map (wires s.heap live)) v
    rw [List.length_map, ← List.map_append, ← l.sizes hlive] at this
    rw [this]
    have e : ((ins.map (wires s.heap live)).map List.length) = ins.map s.heap.n :=
      (l.sizes fun x hx => hlive x (by simp [hx])).symm
    rw [e]
  by_cases hst : 0 < s.stack.length
  · have hkeys := setStack_ctl s.stack cs cs' hc.flat hl1.symm
    refine ⟨cs', outs, h2, setStack s.stack cs', hcall _ ?_, hkeys.2, hkeys.1, hl1, hl2, hstep⟩
    unfold applyInContext
    simp only [hst, decide_true, ↓reduceIte]
    rw [hc.flat, putInOrder_ctl, contextCtor_ctl, wrapperKw_nil, hargs, r1]
    simp only
    rw [r2]
    simp only
    rw [indices_ctl, ← hl1]
    conv_lhs => rw [← ho]
    rw [popAll_zeros]
    simp only
    rw [if_neg (by rw [hc.total, hl1]; simp)]
  · have hnil : s.stack = [] := List.length_eq_zero_iff.1 (by omega)
    have hcsnil : cs = [] := by have := hc.flat; rw [hnil] at this; simpa using this.symm
    subst hcsnil
    have hcs'nil : cs' = [] := List.length_eq_zero_iff.1 (by simpa using hl1)
    refine ⟨cs', outs, h2, s.stack, hcall _ ?_, rfl, by rw [hnil, hcs'nil]; rfl, hl1, hl2, hstep⟩
    unfold applyInContext
    simp only [hst, decide_false, Bool.false_eq_true, ↓reduceIte]
    simp only [List.length_nil, Function.iterate_zero, id_eq, List.map_nil, List.nil_append] at hargs r1
    rw [wrapperKw_nil, hargs, r1]
    simp only
    rw [r2]
    rw [← ho, hcs'nil]
    rfl

end QIP
