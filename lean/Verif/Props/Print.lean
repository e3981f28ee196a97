import Verif.Model.Print
import Verif.Props.Svg

/-!
# Text drawings: C76
-/

namespace QIP.Spec

/-- The label of the `j`-th of `m` qubits: its number, right-aligned with those of the others. -/
def label (m j : Nat) : List Char :=
  let w := ((List.range m).map fun i => (toString i).length).foldl max 0
  List.replicate (w - (toString j).length) ' ' ++ (toString j).toList

/-- The cells of the `j`-th qubit of an operation with `m` qubits, from top to bottom. -/
def opColumn (w : Nat) (name : String) (m j : Nat) : List String :=
  [wireCell w, dashCell w] ++ name.toList.map (charCell w) ++ (label m j).map (charCell w) ++ [dashCell w]

/-- An operation is printed by these lines: `n` cells each, the operation's column on its qubits and wires elsewhere. -/
def Printed (w n : Nat) (name : String) (qs : List Nat) (rows : List (List String)) : Prop :=
  (∀ row ∈ rows, row.length = n) ∧
    (∀ j q, qs[j]? = some q → rows.map (fun row => row.getD q "") = opColumn w name qs.length j) ∧
    ∀ q < n, q ∉ qs → ∀ row ∈ rows, row.getD q "" = wireCell w

end QIP.Spec

namespace QIP.Props

open QIP Spec Heap

theorem putCells_aux (f : Nat → String) (idx : List Nat) (k : Nat) (line : List String) (hnd : idx.Nodup)
    (hlt : ∀ q ∈ idx, q < line.length) :
    ((idx.zipIdx k).foldl (fun l p => l.set p.1 (f p.2)) line).length = line.length ∧
      (∀ j q, idx[j]? = some q → ((idx.zipIdx k).foldl (fun l p => l.set p.1 (f p.2)) line).getD q "" = f (k + j)) ∧
      ∀ q, q ∉ idx → ((idx.zipIdx k).foldl (fun l p => l.set p.1 (f p.2)) line).getD q "" = line.getD q "" := by
  induction idx generalizing k line with
  | nil => simp
  | cons a idx ih =>
    obtain ⟨hna, hnd⟩ := List.nodup_cons.1 hnd
    obtain ⟨h1, h2, h3⟩ := ih (k + 1) (line.set a (f k)) hnd (fun q hq => by
      rw [List.length_set]; exact hlt q (by simp [hq]))
    simp only [List.zipIdx_cons, List.foldl_cons]
    refine ⟨by rw [h1, List.length_set], ?_, ?_⟩
    · intro j q hq
      rcases j with _ | j
      · simp only [List.getElem?_cons_zero, Option.some.injEq] at hq
        subst hq
        rw [h3 _ hna]
        have := hlt a (by simp)
        simp [List.getD, this]
      · rw [h2 j q (by simpa using hq)]
        congr 1; omega
    · intro q hq
      rw [List.mem_cons, not_or] at hq
      rw [h3 q hq.2]
      simp only [List.getD]
      rw [List.getElem?_set_ne (fun e => hq.1 e.symm)]

theorem putCells_spec {idx : List Nat} {line : List String} (f : Nat → String) (hnd : idx.Nodup)
    (hlt : ∀ q ∈ idx, q < line.length) : (putCells idx f line).length = line.length ∧
      (∀ j q, idx[j]? = some q → (putCells idx f line).getD q "" = f j) ∧
      ∀ q, q ∉ idx → (putCells idx f line).getD q "" = line.getD q "" := by
  have := putCells_aux f idx 0 line hnd hlt
  simp only [Nat.zero_add] at this
  exact this

/-- Lines that look like wires outside the operation. -/
def LineOK (w n : Nat) (qs : List Nat) (line : List String) : Prop :=
  line.length = n ∧ ∀ q < n, q ∉ qs → line.getD q "" = wireCell w

theorem lineOK_plain (w n : Nat) (qs : List Nat) : LineOK w n qs (List.replicate n (wireCell w)) :=
  ⟨by simp, fun q hq _ => by simp [List.getD, hq]⟩

theorem LineOK.put {w n : Nat} {qs : List Nat} {line : List String} (h : LineOK w n qs line) (f : Nat → String)
    (hnd : qs.Nodup) (hlt : ∀ q ∈ qs, q < n) : LineOK w n qs (putCells qs f line) ∧
      ∀ j q, qs[j]? = some q → (putCells qs f line).getD q "" = f j := by
  obtain ⟨h1, h2, h3⟩ := putCells_spec (line := line) f hnd (by rw [h.1]; exact hlt)
  exact ⟨⟨by rw [h1, h.1], fun q hq hn => by rw [h3 q hn]; exact h.2 q hq hn⟩, h2⟩

theorem digitLoop {w n : Nat} {qs : List Nat} (hnd : qs.Nodup) (hlt : ∀ q ∈ qs, q < n) (g : Nat → Nat → String)
    (ls : List Nat) (line : List String) (acc : List (List String)) (hline : LineOK w n qs line) :
    ∃ rows last, ls.foldl (fun (st : List String × List (List String)) l =>
        let line := putCells qs (g l) st.1
        (line, st.2 ++ [line])) (line, acc) = (last, acc ++ rows) ∧ LineOK w n qs last ∧
      (∀ row ∈ rows, LineOK w n qs row) ∧ ∀ j q, qs[j]? = some q → rows.map (fun row => row.getD q "") = ls.map fun l => g l j := by
  induction ls generalizing line acc with
  | nil => exact ⟨[], line, by simp, hline, by simp, by simp⟩
  | cons l ls ih =>
    obtain ⟨p1, p2⟩ := hline.put (g l) hnd hlt
    obtain ⟨rows, last, e, h1, h2, h3⟩ := ih (putCells qs (g l) line) (acc ++ [putCells qs (g l) line]) p1
    refine ⟨putCells qs (g l) line :: rows, last, ?_, h1, ?_, ?_⟩
    · rw [List.foldl_cons]
      simp only
      rw [e]
      simp
    · intro row hrow
      rcases List.mem_cons.1 hrow with rfl | hrow
      · exact p1
      · exact h2 row hrow
    · intro j q hq
      rw [List.map_cons, List.map_cons, p2 j q hq, h3 j q hq]

theorem foldl_max_le (l : List Nat) (a : Nat) : a ≤ l.foldl max a ∧ ∀ x ∈ l, x ≤ l.foldl max a := by
  have := (foldl_max_spec l a).2
  exact ⟨this a (by simp), fun x hx => this x (by simp [hx])⟩

theorem toList_rep (k : Nat) (c : Char) : (rep k c).toList = List.replicate k c := by
  simp [rep]

theorem map_range_getD (l : List Char) (f : Char → String) : (List.range l.length).map (fun i => f (l.getD i ' ')) = l.map f := by
  apply List.ext_getElem
  · simp
  · intro i h1 h2
    simp only [List.getElem_map, List.getElem_range]
    rw [List.getD_eq_getElem _ _ (by simpa using h1)]

theorem printRows_op {w n : Nat} {h : Heap} {gs : List (List Nat)} {x : Nat} (hop : isOp h x = true)
    (hne : gs.flatten ≠ []) (hnd : gs.flatten.Nodup) (hlt : ∀ q ∈ gs.flatten, q < n) :
    Printed w n (h.kind x).name gs.flatten (printRows w n h gs x) := by
  have hnb : (h.kind x).name ∉ ["SplitQubit", "Q"] := by rw [name_blacklist, hop]; simp
  unfold printRows printNamed
  simp only
  rw [if_pos (List.length_pos_of_ne_nil hne), if_pos hnb]
  set qs := gs.flatten
  set name := (h.kind x).name
  set plain := List.replicate n (wireCell w)
  have hplain : LineOK w n qs plain := lineOK_plain w n qs
  obtain ⟨t1, t2⟩ := hplain.put (fun _ => dashCell w) hnd hlt
  have hchars : ∀ line ∈ name.toList.map (fun c => putCells qs (fun _ => charCell w c) plain), LineOK w n qs line := by
    intro line hl
    obtain ⟨c, -, rfl⟩ := List.mem_map.1 hl
    exact (hplain.put _ hnd hlt).1
  have hstart : LineOK w n qs (((name.toList.map fun c => putCells qs (fun _ => charCell w c) plain).getLast?).getD
      (putCells qs (fun _ => dashCell w) plain)) := by
    rcases hg : (name.toList.map fun c => putCells qs (fun _ => charCell w c) plain).getLast? with _ | line
    · exact t1
    · exact hchars _ (List.mem_of_getLast? hg)
  set maxLen := ((List.range qs.length).map fun i => (toString i).length).foldl max 0 with hml
  obtain ⟨rows, last, e, r1, r2, r3⟩ := digitLoop (w := w) hnd hlt
    (fun l i => charCell w ((((indexStrs qs.length).getD i "").toList).getD l ' ')) (List.range maxLen) _ [] hstart
  rw [e]
  obtain ⟨b1, b2⟩ := r1.put (fun _ => dashCell w) hnd hlt
  have hall : ∀ row ∈ [plain, putCells qs (fun _ => dashCell w) plain] ++
      name.toList.map (fun c => putCells qs (fun _ => charCell w c) plain) ++ rows ++
      [putCells qs (fun _ => dashCell w) last], LineOK w n qs row := by
    intro row hrow
    simp only [List.mem_append, List.mem_cons, List.not_mem_nil, or_false] at hrow
    rcases hrow with ((((rfl | rfl) | hrow) | hrow) | rfl)
    · exact hplain
    · exact t1
    · exact hchars row hrow
    · exact r2 row hrow
    · exact b1
  simp only [List.nil_append]
  refine ⟨fun row hrow => (hall row hrow).1, ?_, fun q hq hn row hrow => (hall row hrow).2 q hq hn⟩
  intro j q hq
  have hj : j < qs.length := by
    by_contra hcon
    rw [List.getElem?_eq_none (by omega)] at hq
    cases hq
  have hqn : q < n := hlt q (List.mem_of_getElem? hq)
  have hlab : ((indexStrs qs.length).getD j "").toList = label qs.length j := by
    simp only [indexStrs]
    rw [List.getD_eq_getElem _ _ (by simpa using hj)]
    simp [label, toList_rep]
  have hll : (label qs.length j).length = maxLen := by
    have : (toString j).length ≤ maxLen := (foldl_max_le _ _).2 _ (List.mem_map.2 ⟨j, by simpa using hj, rfl⟩)
    simp only [label, List.length_append, List.length_replicate, String.length_toList, ← hml]
    omega
  simp only [List.map_append, List.map_cons, List.map_nil, r3 j q hq, t2 j q hq, b2 j q hq, hlab]
  unfold opColumn
  congr 1
  congr 1
  · congr 1
    · have : plain.getD q "" = wireCell w := by simp [plain, List.getD, hqn]
      rw [this]
    · rw [List.map_map]
      refine List.map_congr_left fun c _ => ?_
      exact (hplain.put _ hnd hlt).2 j q hq
  · rw [← hll, map_range_getD]

theorem printRows_other {w n : Nat} {h : Heap} {gs : List (List Nat)} {x : Nat}
    (hop : isOp h x = false ∨ gs.flatten = []) : printRows w n h gs x = [] := by
  unfold printRows printNamed
  simp only
  rcases hop with hop | hop
  · rw [if_neg (not_not.2 ((name_blacklist h x).2 hop))]
    split <;> rfl
  · rw [hop]; rfl

/-- **C76**: `print_circuit` succeeds, whatever order the sets have.  It prints, in execution order, one group of lines for
each operation on qubits the outputs depend on: in the columns of its qubits its name, the number of the qubit among the
operation's qubits, and a border; plain wires in the other columns. -/
theorem C76_print {h : Heap} {env args : List Nat} (c : Circuit h env args)
    (hd : ∀ x, Reach h args x → (groups h args x).flatten.Nodup) (w : Nat) (pick : List Nat → Nat)
    (shuffle : List Nat → List Nat) (hsh : ∀ l, (shuffle l).Perm l) :
    ∃ out : List (List (List String)), printCircuit w h args pick shuffle = .ok out.flatten ∧
      List.Forall₂ (fun x rows => Printed w (width h args) (h.kind x).name (groups h args x).flatten rows)
        ((needed h args).filter fun x => isOp h x && (groups h args x).flatten != []) out := by
  obtain ⟨V, c⟩ := c.ctx
  obtain ⟨deps, nodes, e1, d1, d2, d3, d4⟩ := getDeps_spec h pick args (fun x hx => c.wf.vlt x (c.vargs x hx))
    fun x hx => c.ilt hx
  have hsl := sortQid_deps c.wf c.vargs ((hsh deps).nodup_iff.2 d1) (fun x => ((hsh deps).mem_iff).trans (d4 x))
  have key : ∀ (L : List Nat), (∀ x ∈ L, Reach h args x) → ∀ acc : List (List String),
      ∃ out : List (List (List String)),
        L.foldlM (fun (a : List (List String)) x =>
          (Except.ok (a ++ printRows w (width h args) h (groups h args x) x) : Except PyErr _)) acc
          = .ok (acc ++ out.flatten) ∧
        List.Forall₂ (fun x rows => Printed w (width h args) (h.kind x).name (groups h args x).flatten rows)
          (L.filter fun x => isOp h x && (groups h args x).flatten != []) out := by
    intro L
    induction L with
    | nil => intro _ acc; exact ⟨[], by simp [pure, Except.pure], by simp⟩
    | cons x L ih =>
      intro hL acc
      have hx := hL x (by simp)
      obtain ⟨out, e, h2⟩ := ih (fun y hy => hL y (by simp [hy])) (acc ++ printRows w (width h args) h (groups h args x) x)
      by_cases hop : (isOp h x && (groups h args x).flatten != []) = true
      · rw [Bool.and_eq_true, bne_iff_ne] at hop
        refine ⟨printRows w (width h args) h (groups h args x) x :: out, ?_, ?_⟩
        · rw [List.foldlM_cons]
          simp only [bind, Except.bind]
          rw [e]
          simp
        · rw [List.filter_cons_of_pos (by rw [Bool.and_eq_true, bne_iff_ne]; exact hop)]
          exact .cons (printRows_op hop.1 hop.2 (hd x hx) fun q hq => c.groups_lt hx hq) h2
      · refine ⟨out, ?_, ?_⟩
        · rw [List.foldlM_cons]
          simp only [bind, Except.bind]
          rw [e]
          rw [printRows_other (by
            rw [Bool.and_eq_true, bne_iff_ne, not_and_or, not_not] at hop
            rcases hop with h' | h'
            · exact Or.inl (by simpa using h')
            · exact Or.inr h')]
          simp
        · rw [List.filter_cons_of_neg (p := fun x => isOp h x && (groups h args x).flatten != []) hop]
          exact h2
  obtain ⟨out, e, h2⟩ := key (needed h args) (fun x hx => (mem_needed c.wf c.vargs).1 hx) []
  refine ⟨out, ?_, h2⟩
  unfold printCircuit
  rw [e1]
  simp only [bind, Except.bind]
  rw [hsl, runGraph_spec c.wf c.kind c.vargs c.size c.split d3 d2 rfl]
  exact e

/-- The cells are equally wide, so that columns are aligned. -/
theorem C76_cells (w : Nat) (hw : 0 < w) (c : Char) :
    (wireCell w).length = 2 * w + 1 ∧ (dashCell w).length = 2 * w + 1 ∧ (charCell w c).length = 2 * w + 1 := by
  simp only [wireCell, dashCell, charCell, ← String.length_toList, String.toList_append, List.length_append, toList_rep,
    List.length_replicate]
  refine ⟨?_, trivial, ?_⟩
  · simp; omega
  · simp; omega

example : ∃ out : List (List (List String)), printCircuit 1 demo [5] (fun _ => 3) List.reverse = .ok out.flatten ∧
    out.length = 3 := by
  obtain ⟨out, h1, h2⟩ := C76_print demo_circuit (fun x hx => (C34_no_sharing demo_circuit demo_once hx).2.1) 1
    (fun _ => 3) List.reverse (fun l => l.reverse_perm)
  refine ⟨out, h1, ?_⟩
  obtain ⟨k0, k1, k2, k4, k5⟩ := demo_kind
  have hne : ∀ x, Reach demo [5] x → x = 2 ∨ x = 4 ∨ x = 5 → (groups demo [5] x).flatten ≠ [] := by
    obtain ⟨V, c⟩ := demo_circuit.ctx
    intro x hx hc e
    have := c.len_flatten hx
    rw [e] at this
    obtain ⟨n0, n1, n2, n4, n5⟩ := demo_n
    obtain ⟨i0, i1, i2, i4, i5⟩ := demo_inputs
    rcases hc with rfl | rfl | rfl <;> simp [*] at this
  have hr : ∀ x ∈ needed demo [5], Reach demo [5] x := by
    obtain ⟨V, c⟩ := demo_circuit.ctx
    exact fun x hx => (mem_needed c.wf c.vargs).1 hx
  rw [demo_needed] at hr
  rw [← h2.length_eq, demo_needed]
  have g2 := hne 2 (hr 2 (by simp)) (by simp)
  have g4 := hne 4 (hr 4 (by simp)) (by simp)
  have g5 := hne 5 (hr 5 (by simp)) (by simp)
  have b2 : (isOp demo 2 && (groups demo [5] 2).flatten != []) = true := by
    rw [Bool.and_eq_true, bne_iff_ne]; exact ⟨by simp [isOp, k2], g2⟩
  have b4 : (isOp demo 4 && (groups demo [5] 4).flatten != []) = true := by
    rw [Bool.and_eq_true, bne_iff_ne]; exact ⟨by simp [isOp, k4], g4⟩
  have b5 : (isOp demo 5 && (groups demo [5] 5).flatten != []) = true := by
    rw [Bool.and_eq_true, bne_iff_ne]; exact ⟨by simp [isOp, k5], g5⟩
  have b0 : (isOp demo 0 && (groups demo [5] 0).flatten != []) = false := by simp [isOp, k0]
  have b1 : (isOp demo 1 && (groups demo [5] 1).flatten != []) = false := by simp [isOp, k1]
  simp [List.filter_cons, b0, b1, b2, b4, b5]

end QIP.Props
