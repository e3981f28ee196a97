import Verif.Model.Graph
import Verif.Spec.Backend
import Verif.Spec.FuncApply
import Verif.Spec.Gates

/-!
# Specification: what a circuit graph means
-/

namespace QIP.Spec

open Classical in
/-- The nodes the outputs depend on. -/
inductive Reach (h : Heap) (args : List Nat) : Nat → Prop
  | arg {x : Nat} : x ∈ args → Reach h args x
  | input {x y : Nat} : Reach h args y → x ∈ h.inputs y → Reach h args x

open Classical in
/-- The nodes the outputs depend on, in creation order. -/
noncomputable def needed (h : Heap) (args : List Nat) : List Nat :=
  (List.range h.nodes.length).filter fun x => Reach h args x

/-- Nodes without inputs. -/
def isLeaf (h : Heap) (x : Nat) : Bool := (h.inputs x).isEmpty

/-- The input qubits of the outputs, in creation order. -/
noncomputable def leaves (h : Heap) (args : List Nat) : List Nat := (needed h args).filter (isLeaf h)

/-- Number of qubits. -/
noncomputable def width (h : Heap) (args : List Nat) : Nat := ((leaves h args).map h.n).sum

/-- First qubit of an input node: the input nodes get consecutive blocks, in creation order. -/
noncomputable def offset (h : Heap) (args : List Nat) (x : Nat) : Nat :=
  (((leaves h args).filter (· < x)).map h.n).sum

/-- The qubits denoted by a node: a block for an input node, the qubits of the inputs, one after the other, for every
other node; a split picks among them by position. -/
noncomputable def wires (h : Heap) (args : List Nat) (x : Nat) : List Nat :=
  if h.inputs x = [] then (List.range (h.n x)).map (offset h args x + ·)
  else
    let all := ((h.inputs x).map fun i => if i < x then wires h args i else []).flatten
    match h.kind x with
    | .split is => is.map fun i => all.getD i.toNat 0
    | _ => all
termination_by x
decreasing_by assumption

/-- The qubits a node acts on, one group per input. -/
noncomputable def groups (h : Heap) (args : List Nat) (x : Nat) : List (List Nat) := (h.inputs x).map (wires h args)

/-- A heap and the references held after further calls. -/
inductive Later (h : Heap) (env : List Nat) : Heap → List Nat → Prop
  | refl : Later h env h env
  | call {h' : Heap} {env' : List Nat} (cmd : Heap.Cmd) : Later h env h' env' → (∀ x ∈ cmd.args, x ∈ env') →
      Later h env (h'.exec cmd).2 (env' ++ match (h'.exec cmd).1 with | .ok xs => xs | .error _ => [])

/-- The places where a register of `n` qubits is cut: both ends and the given boundaries. -/
structure Cuts (n : Nat) (bs : List Int) (cs : List Nat) : Prop where
  asc : cs.Pairwise (· < ·)
  mem : ∀ c, c ∈ cs ↔ c = 0 ∨ c = n ∨ (c : Int) ∈ bs

/-- Consecutive positions. -/
def slice (l : List Nat) (a b : Nat) : List Nat := (l.drop a).take (b - a)

/-- The positions picked by a split exist. -/
def SplitOK (h : Heap) (x : Nat) : Prop :=
  ∀ is, h.kind x = .split is → ∀ i ∈ is, 0 ≤ i ∧ i < (((h.inputs x).map h.n).sum : Nat)

/-- The size of a node is the number of qubits it denotes (a joining `Qubit` can be given another size by the `n`
argument). -/
def SizeOK (h : Heap) (x : Nat) : Prop :=
  h.inputs x ≠ [] → (∀ is, h.kind x ≠ .split is) → h.n x = ((h.inputs x).map h.n).sum

end QIP.Spec
