import Verif.Spec.Run
import Verif.Spec.Job
import Verif.Model.DistRun

/-!
# Specification: runs on the distributed backend
-/

namespace QIP.Spec

open QIP

/-- A reply of the manager, as the client reads it. -/
def asReply : Option (Nat × ℝ) → Reply
  | none => .confirm
  | some (m, p) => .measured m p

/-- The distributed backend can run the node: no function, no distribution, and only gates that are described by tuples of
qubits (swaps and controlled gates). -/
def DistNode (h : Heap) (x : Nat) : Prop :=
  match h.kind x with
  | .gate g _ => (∃ k, g = .swap k) ∨ ∃ g', g = .c g'
  | .fop _ => False
  | .smeasure _ => False
  | _ => True

/-- Some input qubit does not start as `|0…0⟩` by omission: a vector is fed, or a default is given. -/
def SomeFed (h : Heap) (args : List Nat) (feed : List (List Nat × List ℂ)) : Prop :=
  feed ≠ [] ∨ ∃ q ∈ leaves h args, match h.default q with
    | none => False
    | some (.int k) => 0 < k
    | some _ => True

/-- The same environment with other random draws, and accumulators that happen to be 0. -/
def drawing (orc : Nat → Oracle) (us : Nat → ℝ) (x : Nat) : Oracle := { orc x with u := us x, garbage := 0 }

end QIP.Spec
