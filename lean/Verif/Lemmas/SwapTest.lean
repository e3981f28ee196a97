import Verif.Model.Examples
import Verif.Lemmas.Demo
import Verif.Lemmas.Block
import Verif.Lemmas.WrapStep
import Verif.Spec.Wrap

/-! # The objects made by the swap test -/

namespace QIP

open Spec Heap

def swapHeap0 (k : Nat) : Heap :=
  ⟨[⟨.qubit, 1, 0, [], none, []⟩, ⟨.qubit, k, 1, [], none, []⟩, ⟨.qubit, k, 2, [], none, []⟩], 3⟩

def swapHeap1 (k : Nat) : Heap :=
  ⟨[⟨.qubit, 1, 0, [], none, [3]⟩, ⟨.qubit, k, 1, [], none, []⟩, ⟨.qubit, k, 2, [], none, []⟩,
    ⟨.gate .h false, 1, 3, [0], none, []⟩], 4⟩

def swapHeap2 (k : Nat) : Heap :=
  ⟨[⟨.qubit, 1, 0, [], none, [3]⟩, ⟨.qubit, k, 1, [], none, [4, 5]⟩, ⟨.qubit, k, 2, [], none, [4, 5]⟩,
    ⟨.gate .h false, 1, 3, [0], none, [5]⟩, ⟨.gate (.swap k) false, k + k, 4, [1, 2], none, []⟩,
    ⟨.gate (.c (.swap k)) false, 1 + (k + k), 4, [3, 1, 2], none, []⟩], 5⟩

def swapHeap3 (k : Nat) : Heap :=
  ⟨[⟨.qubit, 1, 0, [], none, [3]⟩, ⟨.qubit, k, 1, [], none, [4, 5]⟩, ⟨.qubit, k, 2, [], none, [4, 5]⟩,
    ⟨.gate .h false, 1, 3, [0], none, [5]⟩, ⟨.gate (.swap k) false, k + k, 4, [1, 2], none, []⟩,
    ⟨.gate (.c (.swap k)) false, 1 + (k + k), 4, [3, 1, 2], none, [6, 7, 8]⟩,
    ⟨.split [0], 1, 5, [5], none, []⟩,
    ⟨.split ((List.range k).map fun (i : Nat) => 1 + (i : Int)), k, 5, [5], none, []⟩,
    ⟨.split ((List.range k).map fun (i : Nat) => (k + 1 : Int) + (i : Int)), k, 5, [5], none, []⟩], 6⟩

def swapHeap (k : Nat) : Heap :=
  ⟨[⟨.qubit, 1, 0, [], none, [3]⟩, ⟨.qubit, k, 1, [], none, [4, 5]⟩, ⟨.qubit, k, 2, [], none, [4, 5]⟩,
    ⟨.gate .h false, 1, 3, [0], none, [5]⟩, ⟨.gate (.swap k) false, k + k, 4, [1, 2], none, []⟩,
    ⟨.gate (.c (.swap k)) false, 1 + (k + k), 4, [3, 1, 2], none, [6, 7, 8]⟩,
    ⟨.split [0], 1, 5, [5], none, [9]⟩,
    ⟨.split ((List.range k).map fun (i : Nat) => 1 + (i : Int)), k, 5, [5], none, []⟩,
    ⟨.split ((List.range k).map fun (i : Nat) => (k + 1 : Int) + (i : Int)), k, 5, [5], none, []⟩,
    ⟨.gate .h false, 1, 6, [6], none, []⟩], 7⟩

theorem swap_regs {k : Nat} (hk : 0 < k) : registers [1, k, k] = swapHeap0 k := by
  obtain ⟨k, rfl⟩ := Nat.exists_eq_add_of_lt hk
  rw [Nat.zero_add]
  rfl

theorem swap_construct {k : Nat} (hk : 0 < k) :
    constructArgs (swapHeap1 k) (.c (.op (.swap 0))) [] [some 3, some 1, some 2] = (.ok 5, swapHeap2 k) := by
  have h0 : ¬ ((k:Int) + k ≤ 0) := by omega
  have h1 : ¬ (1 + ((k:Int) + k) ≤ 0) := by omega
  simp [constructArgs, allRefs, initQubit, registerSinks, mkSimple, Gate.withKw, setSink, Heap.kind, node, Heap.n,
    addSink, Heap.qid, swapHeap1, h0, h1, swapHeap2]
  omega

theorem swap_construct' {k : Nat} (hk : 0 < k) :
    (swapHeap1 k).construct (.c (.gate (.swap 0))) false [3, 1, 2] = (.ok 5, swapHeap2 k) := by
  have h0 : ¬ ((k:Int) + k ≤ 0) := by omega
  have h1 : ¬ (1 + ((k:Int) + k) ≤ 0) := by omega
  simp [construct, controlOK, initQubit, registerSinks, mkSimple, setSink, Heap.kind, node, Heap.n,
    addSink, Heap.qid, swapHeap1, h0, h1, swapHeap2]
  omega

theorem swap_split {k : Nat} (hk : 0 < k) : (swapHeap2 k).split 5 none = (.ok [6, 7, 8], swapHeap3 k) := by
  have hc : (swapHeap2 k).cumulative ((swapHeap2 k).inputs 5) 0 = [1, (k : Int) + 1, k + (1 + k)] := by
    simp [Heap.cumulative, Heap.inputs, node, Heap.n, swapHeap2]
  have he : addEnds ((swapHeap2 k).n 5) [1, (k : Int) + 1, k + (1 + k)] = [0, 1, (k : Int) + 1, k + (1 + k)] := by
    unfold addEnds
    have hn : (((swapHeap2 k).n 5 : Nat) : Int) = k + (1 + k) := by
      simp [node, Heap.n, swapHeap2]; omega
    have h0 : (0 : Int) ∉ [1, (k : Int) + 1, k + (1 + k)] := by simp; omega
    rw [hn]
    simp only [h0, if_false]
    simp
  unfold split
  simp only [hc, he]
  rw [if_neg (by simp)]
  have e2 : ((k : Int) + (1 + k) - (k + 1)).toNat = k := by omega
  have h0 : ¬ ((k:Int) ≤ 0) := by omega
  have e0 : k ≠ 0 := by omega
  simp [splitLoop, initQubit, e2, h0, swapHeap2, swapHeap3, registerSinks, setSink, Heap.kind, Heap.qid, addSink, node, e0]

theorem swapTest_ok {k : Nat} (hk : 0 < k) :
    swapTest ⟨registers [1, k, k], [], 0, fun _ => 0⟩ = (.ok 9, ⟨swapHeap k, [], 0, fun _ => 0⟩) := by
  have h1 : callWrapper (.op .h) [] [0] ⟨swapHeap0 k, [], 0, fun _ => 0⟩ = (.ok [3], ⟨swapHeap1 k, [], 0, fun _ => 0⟩) := rfl
  have h3 : callWrapper (.op .h) [] [6] ⟨swapHeap3 k, [], 0, fun _ => 0⟩ = (.ok [9], ⟨swapHeap k, [], 0, fun _ => 0⟩) := rfl
  have h2 : callWrapper (.c (.op (.swap 0))) [] [3, 1, 2] ⟨swapHeap1 k, [], 0, fun _ => 0⟩
      = (.ok [6, 7, 8], ⟨swapHeap3 k, [], 0, fun _ => 0⟩) := by
    have ha : applyInContext (.c (.op (.swap 0))) ((Ctor.c (.op (.swap 0))).positional [3, 1, 2])
        ⟨swapHeap1 k, [], 0, fun _ => 0⟩ = (.ok [6, 7, 8], ⟨swapHeap3 k, [], 0, fun _ => 0⟩) := by
      unfold applyInContext
      have hw : wrapperKw [] [] = [] := rfl
      have hp : (Ctor.c (.op (.swap 0))).positional [3, 1, 2] = [some 3, some 1, some 2] := rfl
      simp only [List.length_nil, Nat.lt_irrefl, decide_false, Bool.false_eq_true, if_false, hw, hp,
        swap_construct hk, swap_split hk]
    unfold callWrapper
    exact (W.bind_ok ha).trans rfl
  rw [swap_regs hk]
  unfold swapTest
  rw [W.bind_ok h1]
  dsimp only
  rw [W.bind_ok h2]
  dsimp only
  rw [W.bind_ok h3]
  rfl

theorem swap_built {k : Nat} (hk : 0 < k) : Built (swapHeap k) [0, 1, 2, 3, 5, 6, 7, 8, 9] := by
  have b0 : Built (swapHeap0 k) [0, 1, 2] := by
    rw [← swap_regs hk]
    obtain ⟨k, rfl⟩ := Nat.exists_eq_add_of_lt hk
    rw [Nat.zero_add]
    exact Built.call (.qubit [] (some ((k + 1 : Nat) : Int)) none) (Built.call (.qubit [] (some ((k + 1 : Nat) : Int)) none)
      (Built.call (.qubit [] (some ((1 : Nat) : Int)) none) Built.start (by simp [Cmd.args])) (by simp [Cmd.args])) (by simp [Cmd.args])
  have b1 : Built (swapHeap1 k) [0, 1, 2, 3] := Built.call (.op (.gate .h) false [0]) b0 (by simp [Cmd.args])
  have b2 : Built (swapHeap2 k) [0, 1, 2, 3, 5] := by
    have := Built.call (.op (.c (.gate (.swap 0))) false [3, 1, 2]) b1 (by simp [Cmd.args])
    simp only [exec, swap_construct' hk, Except.map] at this
    exact this
  have b3 : Built (swapHeap3 k) [0, 1, 2, 3, 5, 6, 7, 8] := by
    have := Built.call (.split 5 none) b2 (by simp [Cmd.args])
    simp only [exec, swap_split hk] at this
    exact this
  exact Built.call (.op (.gate .h) false [6]) b3 (by simp [Cmd.args])

section

variable (k : Nat)

theorem swap_inputs : (swapHeap k).inputs 0 = [] ∧ (swapHeap k).inputs 1 = [] ∧ (swapHeap k).inputs 2 = [] ∧
    (swapHeap k).inputs 3 = [0] ∧ (swapHeap k).inputs 5 = [3, 1, 2] ∧ (swapHeap k).inputs 6 = [5] ∧
    (swapHeap k).inputs 9 = [6] := ⟨rfl, rfl, rfl, rfl, rfl, rfl, rfl⟩

theorem swap_kind : (swapHeap k).kind 0 = .qubit ∧ (swapHeap k).kind 1 = .qubit ∧ (swapHeap k).kind 2 = .qubit ∧
    (swapHeap k).kind 3 = .gate .h false ∧ (swapHeap k).kind 5 = .gate (.c (.swap k)) false ∧
    (swapHeap k).kind 6 = .split [0] ∧ (swapHeap k).kind 9 = .gate .h false := ⟨rfl, rfl, rfl, rfl, rfl, rfl, rfl⟩

theorem swap_n : (swapHeap k).n 0 = 1 ∧ (swapHeap k).n 1 = k ∧ (swapHeap k).n 2 = k ∧ (swapHeap k).n 3 = 1 ∧
    (swapHeap k).n 5 = 1 + (k + k) ∧ (swapHeap k).n 6 = 1 ∧ (swapHeap k).n 9 = 1 := ⟨rfl, rfl, rfl, rfl, rfl, rfl, rfl⟩

theorem swap_reach (x : Nat) : Reach (swapHeap k) [9] x ↔ x ∈ [0, 1, 2, 3, 5, 6, 9] := by
  obtain ⟨i0, i1, i2, i3, i5, i6, i9⟩ := swap_inputs k
  constructor
  · refine reach_sub (by simp) ?_
    intro y hy
    simp only [List.mem_cons, List.not_mem_nil, or_false] at hy
    rcases hy with rfl | rfl | rfl | rfl | rfl | rfl | rfl <;> simp [*]
  · have h9 : Reach (swapHeap k) [9] 9 := .arg (by simp)
    have h6 : Reach (swapHeap k) [9] 6 := .input h9 (by simp [*])
    have h5 : Reach (swapHeap k) [9] 5 := .input h6 (by simp [*])
    have h3 : Reach (swapHeap k) [9] 3 := .input h5 (by simp [*])
    have h2 : Reach (swapHeap k) [9] 2 := .input h5 (by simp [*])
    have h1 : Reach (swapHeap k) [9] 1 := .input h5 (by simp [*])
    have h0 : Reach (swapHeap k) [9] 0 := .input h3 (by simp [*])
    intro hx
    simp only [List.mem_cons, List.not_mem_nil, or_false] at hx
    rcases hx with rfl | rfl | rfl | rfl | rfl | rfl | rfl <;> assumption

end

variable {k : Nat}

theorem swap_circuit (hk : 0 < k) : Circuit (swapHeap k) [0, 1, 2, 3, 5, 6, 7, 8, 9] [9] := by
  obtain ⟨i0, i1, i2, i3, i5, i6, i9⟩ := swap_inputs k
  obtain ⟨k0, k1, k2, k3, k5, k6, k9⟩ := swap_kind k
  obtain ⟨n0, n1, n2, n3, n5, n6, n9⟩ := swap_n k
  refine ⟨swap_built hk, by simp, ?_, ?_⟩
  · intro x hx
    rw [swap_reach] at hx
    simp only [List.mem_cons, List.not_mem_nil, or_false] at hx
    rcases hx with rfl | rfl | rfl | rfl | rfl | rfl | rfl <;> simp [SizeOK, *]
  · intro x hx is hk
    rw [swap_reach] at hx
    simp only [List.mem_cons, List.not_mem_nil, or_false] at hx
    rcases hx with rfl | rfl | rfl | rfl | rfl | rfl | rfl <;> simp [*] at hk
    subst hk
    simp [*]
    omega

theorem swap_needed (hk : 0 < k) : needed (swapHeap k) [9] = [0, 1, 2, 3, 5, 6, 9] := by
  obtain ⟨V, c⟩ := (swap_circuit hk).ctx
  exact needed_known c (by simp) (swap_reach k)

theorem swap_leaves (hk : 0 < k) : leaves (swapHeap k) [9] = [0, 1, 2] := by
  obtain ⟨i0, i1, i2, i3, i5, i6, i9⟩ := swap_inputs k
  simp [leaves, swap_needed hk, isLeaf, *]

theorem swap_width (hk : 0 < k) : width (swapHeap k) [9] = 1 + (k + k) := by
  obtain ⟨n0, n1, n2, n3, n5, n6, n9⟩ := swap_n k
  simp [width, swap_leaves hk, *]

theorem swap_wires (hk : 0 < k) : wires (swapHeap k) [9] 0 = [0] ∧
    wires (swapHeap k) [9] 1 = (List.range k).map (1 + ·) ∧ wires (swapHeap k) [9] 2 = (List.range k).map (1 + k + ·) ∧
    groups (swapHeap k) [9] 3 = [[0]] ∧
    groups (swapHeap k) [9] 5 = [[0], (List.range k).map (1 + ·), (List.range k).map (1 + k + ·)] ∧
    groups (swapHeap k) [9] 9 = [[0]] := by
  obtain ⟨i0, i1, i2, i3, i5, i6, i9⟩ := swap_inputs k
  obtain ⟨k0, k1, k2, k3, k5, k6, k9⟩ := swap_kind k
  obtain ⟨n0, n1, n2, n3, n5, n6, n9⟩ := swap_n k
  obtain ⟨V, c⟩ := (swap_circuit hk).ctx
  have w0 : wires (swapHeap k) [9] 0 = [0] := by rw [wires_leaf i0]; simp [offset, swap_leaves hk, n0]
  have w1 : wires (swapHeap k) [9] 1 = (List.range k).map (1 + ·) := by
    rw [wires_leaf i1]; simp [offset, swap_leaves hk, n0, n1]
  have w2 : wires (swapHeap k) [9] 2 = (List.range k).map (1 + k + ·) := by
    rw [wires_leaf i2]; simp [offset, swap_leaves hk, n0, n1, n2]
  have g3 : groups (swapHeap k) [9] 3 = [[0]] := by simp [groups, i3, w0]
  have w3 : wires (swapHeap k) [9] 3 = [0] := by
    rw [wires_node (by simp [i3]) (c.ilt ((swap_reach k 3).2 (by simp)))]
    simp [k3, g3]
  have g5 : groups (swapHeap k) [9] 5 = [[0], (List.range k).map (1 + ·), (List.range k).map (1 + k + ·)] := by
    simp [groups, i5, w3, w1, w2]
  have w5 : wires (swapHeap k) [9] 5 = 0 :: ((List.range k).map (1 + ·) ++ (List.range k).map (1 + k + ·)) := by
    rw [wires_node (by simp [i5]) (c.ilt ((swap_reach k 5).2 (by simp)))]
    simp [k5, g5]
  have w6 : wires (swapHeap k) [9] 6 = [0] := by
    rw [wires_node (by simp [i6]) (c.ilt ((swap_reach k 6).2 (by simp)))]
    simp [k6, groups, i6, w5]
  exact ⟨w0, w1, w2, g3, g5, by simp [groups, i9, w6]⟩

theorem swap_groups_nodup (k : Nat) :
    (([[0], (List.range k).map (1 + ·), (List.range k).map (1 + k + ·)] : List (List Nat)).flatten).Nodup := by
  have : ([[0], (List.range k).map (1 + ·), (List.range k).map (1 + k + ·)] : List (List Nat)).flatten
      = List.range (1 + (k + k)) := by
    rw [List.range_add, List.range_add]
    simp [Function.comp_def, Nat.add_assoc]
  rw [this]
  exact List.nodup_range

theorem swap_nodes (hk : 0 < k) : ∀ x, Reach (swapHeap k) [9] x →
    NodeOK (swapHeap k) [9] x ∧ NoMeasure (swapHeap k) [9] x := by
  obtain ⟨i0, i1, i2, i3, i5, i6, i9⟩ := swap_inputs k
  obtain ⟨k0, k1, k2, k3, k5, k6, k9⟩ := swap_kind k
  obtain ⟨w0, w1, w2, g3, g5, g9⟩ := swap_wires hk
  have hnd := swap_groups_nodup k
  intro x hx
  have hx' := hx
  rw [swap_reach] at hx
  simp only [List.mem_cons, List.not_mem_nil, or_false] at hx
  obtain ⟨V, c⟩ := (swap_circuit hk).ctx
  have g6 : (groups (swapHeap k) [9] 6).flatten.Nodup := by
    have w5 : wires (swapHeap k) [9] 5 = (groups (swapHeap k) [9] 5).flatten := by
      rw [wires_node (by simp [i5]) (c.ilt ((swap_reach k 5).2 (by simp)))]
      simp [k5]
    have e : groups (swapHeap k) [9] 6 = [(groups (swapHeap k) [9] 5).flatten] := by
      simp only [groups, i6, List.map_cons, List.map_nil, w5]
    rw [e, g5]
    rw [List.flatten_cons, List.flatten_nil, List.append_nil]
    exact hnd
  refine ⟨⟨?_, ?_, ?_⟩, ?_⟩
  · rcases hx with rfl | rfl | rfl | rfl | rfl | rfl | rfl
    · simp [groups, i0]
    · simp [groups, i1]
    · simp [groups, i2]
    · simp [g3]
    · rw [g5]; exact hnd
    · exact g6
    · simp [g9]
  · intro g d hkd
    rcases hx with rfl | rfl | rfl | rfl | rfl | rfl | rfl <;> simp [*] at hkd ⊢ <;> simp [← hkd.2]
  · intro f hkd
    rcases hx with rfl | rfl | rfl | rfl | rfl | rfl | rfl <;> simp [*] at hkd
  · unfold NoMeasure
    rcases hx with rfl | rfl | rfl | rfl | rfl | rfl | rfl <;> simp [*]

end QIP
