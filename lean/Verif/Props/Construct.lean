import Verif.Lemmas.WrapOp
import Verif.Lemmas.Demo

/-! # C73: constructors build the operation asked for -/

namespace QIP.Props

open QIP Spec Heap

/-- **C73**: a valid call of a constructor of a matrix operation, also under any number of `C(…)`, makes a node of that
operation, with that `dagger`, on exactly the inputs given, in the order given. -/
theorem C73_matrix_operation {h : Heap} {env inputs : List Nat} (hb : Built h env) (hin : ∀ x ∈ inputs, x ∈ env)
    (hnd : inputs.Nodup) (hpos : ∀ x ∈ inputs, 0 < h.n x) {op : OpSpec} (hf : OpFits op (inputs.map h.n)) (d : Bool) :
    ∃ y h', h.exec (.op op d inputs) = (.ok [y], h') ∧ h'.kind y = .gate (opGate op (inputs.map h.n)) d ∧
      h'.inputs y = inputs ∧ h'.n y = (inputs.map h.n).sum ∧ y ∉ env := by
  obtain ⟨V, hw, hk, hV⟩ := built_wf hb
  have hin' : ∀ i ∈ inputs, V i := fun i hi => hV i (hin i hi)
  obtain ⟨y, h', r, k, e⟩ := construct_ok hw op d hin' hnd hpos hf
  have cs := (construct_spec hw op d hin').2.2 y (by rw [r])
  rw [r] at cs
  refine ⟨y, h', ?_, k, cs.inputs, e.symm, ?_⟩
  · simp only [exec, r]
    rfl
  · intro hy
    have := hw.vlt y (hV y hy)
    have := cs.new
    omega

/-- **C73** for `F`. -/
theorem C73_function {h : Heap} {env : List Nat} (hb : Built h env) {a b : Nat} (ha : a ∈ env) (hb' : b ∈ env)
    (hpos : 0 < h.n a) (f : Nat → Except PyErr Int) (d : Bool) :
    ∃ y h', h.exec (.op (.fop f) d [a, b]) = (.ok [y], h') ∧ h'.kind y = .fop f ∧ h'.inputs y = [a, b] ∧ y ∉ env := by
  obtain ⟨V, hw, hk, hV⟩ := built_wf hb
  have hin' : ∀ i ∈ [a, b], V i := by
    intro i hi
    simp at hi
    rcases hi with rfl | rfl <;> exact hV _ (by assumption)
  have hN : 0 < h.initN [a, b] none := by
    simp only [initN, List.length_cons, Nat.zero_lt_succ, gt_iff_lt, ↓reduceIte, List.map_cons, List.sum_cons]
    omega
  obtain ⟨h', r, e, w, c⟩ := initQubit_ok hw (kind := .fop f) (n := none) (qid := none) hin' qidOK_none (by simp) hN
  refine ⟨h.nodes.length, h', ?_, c.kindx, c.inputsx, ?_⟩
  · simp only [exec, construct]
    rw [if_neg (by simp), r]
    rfl
  · intro hy
    have := hw.vlt _ (hV _ hy)
    omega

/-- `COp(Not, q1, q0, dagger=True)` in the example circuit. -/
example : ∃ y h', demo.exec (.op (.c (.gate .not)) true [1, 0]) = (.ok [y], h') ∧ h'.kind y = .gate (.c .not) true ∧
    h'.inputs y = [1, 0] := by
  obtain ⟨y, h', r, k, i, -⟩ := C73_matrix_operation demo_built (inputs := [1, 0]) (by simp) (by simp)
    (by simp [demo_n]) (op := .c (.gate .not)) ⟨[2], by simp [demo_n], by simp, by simp [OpFits]⟩ true
  exact ⟨y, h', r, k, i⟩

end QIP.Props
