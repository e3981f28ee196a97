import Verif.Lemmas.Evolve

/-! # New registers -/

namespace QIP

open Spec Heap

/-- A heap of registers without operations. -/
structure AllRegs (h : Heap) (ns : List Nat) : Prop where
  built : Built h (List.range ns.length)
  len : h.nodes.length = ns.length
  kind : ∀ i < ns.length, h.kind i = .qubit
  inputs : ∀ i < ns.length, h.inputs i = []
  n : ∀ i < ns.length, h.n i = ns.getD i 0
  sinks : ∀ i < ns.length, h.sinks i = []

theorem exec_register {h : Heap} {n : Nat} (hn : 0 < n) {d : Option Default} (hd : badDefault n d = false) :
    h.exec (.qubit [] (some n) d) = (.ok [h.nodes.length],
      h.push (h.newNode .qubit [] (some n) none d) (h.newNext none)) := by
  have : h.initQubit .qubit [] (some (n : Int)) none d
      = (.ok h.nodes.length, h.push (h.newNode .qubit [] (some n) none d) (h.newNext none)) := by
    rw [initQubit_eq, if_neg (by simp [initN, hd]), if_neg (by simp [initN]; omega)]
    rfl
  unfold exec
  simp only
  rw [this]
  rfl

theorem allRegs_push {h : Heap} {ns : List Nat} (a : AllRegs h ns) {n : Nat} (hn : 0 < n) {d : Option Default}
    (hd : badDefault n d = false) :
    AllRegs (h.exec (.qubit [] (some n) d)).2 (ns ++ [n]) ∧
      (∀ i < ns.length, (h.exec (.qubit [] (some n) d)).2.default i = h.default i) ∧
      (h.exec (.qubit [] (some n) d)).2.default ns.length = d := by
  have he := exec_register (h := h) hn hd
  have hb := Built.call (.qubit [] (some n) d) a.built (by simp [Cmd.args])
  rw [he] at hb ⊢
  simp only at hb ⊢
  set h' := h.push (h.newNode .qubit [] (some (n : Int)) none d) (h.newNext none) with hh
  have hold : ∀ i < ns.length, h'.node i = h.node i := fun i hi => node_push_lt _ _ _ (by rw [a.len]; exact hi)
  have hnew : h'.node ns.length = h.newNode .qubit [] (some (n : Int)) none d := by
    rw [← a.len]; exact node_push_eq _ _ _
  have hcase : ∀ i < (ns ++ [n]).length, i < ns.length ∨ i = ns.length := by intro i hi; simp at hi; omega
  refine ⟨⟨?_, by simp [hh, push, a.len], ?_, ?_, ?_, ?_⟩, ?_, ?_⟩
  · have e : List.range ns.length ++ [h.nodes.length] = List.range (ns ++ [n]).length := by
      rw [a.len]; simp [List.range_succ]
    rw [← e]
    exact hb
  · intro i hi
    rcases hcase i hi with h1 | rfl
    · have := a.kind i h1; unfold Heap.kind at *; rw [hold i h1, this]
    · unfold Heap.kind; rw [hnew]; rfl
  · intro i hi
    rcases hcase i hi with h1 | rfl
    · have := a.inputs i h1; unfold Heap.inputs at *; rw [hold i h1, this]
    · unfold Heap.inputs; rw [hnew]; rfl
  · intro i hi
    rcases hcase i hi with h1 | rfl
    · have := a.n i h1
      unfold Heap.n at *
      rw [hold i h1, this, List.getD_eq_getElem _ _ h1, List.getD_eq_getElem _ _ hi, List.getElem_append_left h1]
    · unfold Heap.n
      rw [hnew, List.getD_eq_getElem _ _ hi]
      simp [newNode, initN]
  · intro i hi
    rcases hcase i hi with h1 | rfl
    · have := a.sinks i h1; unfold Heap.sinks at *; rw [hold i h1, this]
    · unfold Heap.sinks; rw [hnew]; rfl
  · intro i h1
    unfold Heap.default; rw [hold i h1]
  · unfold Heap.default; rw [hnew]; rfl

theorem allRegs_empty : AllRegs empty [] := ⟨Built.start, rfl, by simp, by simp, by simp, by simp⟩

theorem registers_all (ns : List Nat) (hpos : ∀ n ∈ ns, 0 < n) :
    AllRegs (registers ns) ns ∧ ∀ i < ns.length, (registers ns).default i = none := by
  have key : ∀ (ms : List Nat) (h : Heap) (ks : List Nat), (∀ n ∈ ms, 0 < n) →
      (AllRegs h ks ∧ ∀ i < ks.length, h.default i = none) →
      AllRegs (ms.foldl (fun h (n : Nat) => (h.exec (.qubit [] (some n) none)).2) h) (ks ++ ms) ∧
        ∀ i < (ks ++ ms).length, (ms.foldl (fun h (n : Nat) => (h.exec (.qubit [] (some n) none)).2) h).default i = none := by
    intro ms
    induction ms with
    | nil => intro h ks _ a; simpa using a
    | cons m ms ih =>
      intro h ks hp a
      obtain ⟨p1, p2, p3⟩ := allRegs_push a.1 (hp m (by simp)) (d := none) rfl
      have := ih _ (ks ++ [m]) (fun n hn => hp n (by simp [hn])) ⟨p1, by
        intro i hi
        rcases (by simp at hi; omega : i < ks.length ∨ i = ks.length) with h1 | rfl
        · rw [p2 i h1, a.2 i h1]
        · exact p3⟩
      simpa using this
  exact key ns empty [] hpos ⟨allRegs_empty, by simp⟩

theorem allRegs_registers (ns : List Nat) (hpos : ∀ n ∈ ns, 0 < n) : AllRegs (registers ns) ns :=
  (registers_all ns hpos).1

theorem range_append_map (a b : Nat) : List.range a ++ (List.range b).map (a + ·) = List.range (a + b) :=
  (List.range_add).symm

variable {h : Heap} {ns : List Nat}

theorem AllRegs.reach (a : AllRegs h ns) (x : Nat) : Reach h (List.range ns.length) x ↔ x < ns.length := by
  constructor
  · intro hx
    induction hx with
    | arg hm => simpa using hm
    | input h1 h2 ih => rw [a.inputs _ ih] at h2; simp at h2
  · intro hx; exact .arg (by simpa using hx)

theorem AllRegs.leaves (a : AllRegs h ns) : leaves h (List.range ns.length) = List.range ns.length := by
  unfold Spec.leaves needed
  rw [a.len, List.filter_filter]
  rw [List.filter_eq_self]
  intro x hx
  have hx' := List.mem_range.1 hx
  simp only [isLeaf, a.inputs x hx', List.isEmpty_nil, Bool.true_and, decide_eq_true_eq]
  exact (a.reach x).2 hx'

theorem AllRegs.map_n (a : AllRegs h ns) (k : Nat) (hk : k ≤ ns.length) : (List.range k).map h.n = ns.take k := by
  apply List.ext_getElem
  · simp; omega
  · intro i h1 h2
    simp only [List.length_map, List.length_range] at h1
    simp only [List.getElem_map, List.getElem_range, List.getElem_take]
    rw [a.n i (by omega), List.getD_eq_getElem _ _ (by omega)]

theorem AllRegs.width (a : AllRegs h ns) : width h (List.range ns.length) = ns.sum := by
  unfold Spec.width
  rw [a.leaves, a.map_n _ le_rfl, List.take_length]

theorem AllRegs.wires (a : AllRegs h ns) {x : Nat} (hx : x < ns.length) :
    wires h (List.range ns.length) x = (List.range (ns.getD x 0)).map ((ns.take x).sum + ·) := by
  rw [Spec.wires.eq_def, if_pos (a.inputs x hx), a.n x hx]
  have : offset h (List.range ns.length) x = (ns.take x).sum := by
    unfold Spec.offset
    rw [a.leaves]
    have e : (List.range ns.length).filter (· < x) = List.range x := by
      refine asc_ext (List.pairwise_lt_range.filter _) List.pairwise_lt_range ?_
      intro y
      simp only [List.mem_filter, List.mem_range, decide_eq_true_eq]
      omega
    rw [e, a.map_n x hx.le]
  rw [this]

theorem AllRegs.wires_all (a : AllRegs h ns) :
    ((List.range ns.length).map (Spec.wires h (List.range ns.length))).flatten = List.range ns.sum := by
  have key : ∀ k ≤ ns.length, ((List.range k).map (Spec.wires h (List.range ns.length))).flatten
      = List.range (ns.take k).sum := by
    intro k
    induction k with
    | zero => intro _; rfl
    | succ k ih =>
      intro hk
      rw [List.range_succ, List.map_append, List.flatten_append, ih (by omega)]
      simp only [List.map_cons, List.map_nil, List.flatten_cons, List.flatten_nil, List.append_nil]
      rw [a.wires (by omega), range_append_map, List.take_succ_eq_append_getElem (by omega), List.sum_append,
        List.getD_eq_getElem _ _ (by omega)]
      simp
  have := key ns.length le_rfl
  rwa [List.take_length] at this

theorem AllRegs.current (a : AllRegs h ns) (hpos : ∀ n ∈ ns, 0 < n) :
    Current h (List.range ns.length) (List.range ns.length) := by
  have hnd : ∀ x < ns.length, (Spec.groups h (List.range ns.length) x) = [] := by
    intro x hx
    unfold Spec.groups
    rw [a.inputs x hx]; rfl
  refine ⟨⟨a.built, fun x hx => hx, ?_, ?_⟩, ?_, ?_, ?_, ?_⟩
  · intro x hx
    have hx := (a.reach x).1 hx
    intro h1
    exact absurd (a.inputs x hx) h1
  · intro x hx
    have hx := (a.reach x).1 hx
    intro is hk; rw [a.kind x hx] at hk; cases hk
  · intro x hx
    have hx := (a.reach x).1 hx
    refine ⟨by rw [hnd x hx]; simp, ?_, ?_⟩
    · intro g d hk; rw [a.kind x hx] at hk; cases hk
    · intro f hk; rw [a.kind x hx] at hk; cases hk
  · intro x hx
    have hx := (a.reach x).1 hx
    unfold NoMeasure; rw [a.kind x hx]; simp
  · rw [a.wires_all, a.width]
  · intro x hx
    exact a.sinks x (by simpa using hx)

end QIP
