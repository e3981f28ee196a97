import Verif.Model.Retry
import Verif.Spec.Run

/-!
# Specification: trying again after an exception
-/

namespace QIP.Spec

open Heap

/-- The matrices cached in the node objects after some runs of outputs satisfying `P`, whether they raised or not. -/
inductive Tries (h : Heap) (P : List Nat → Prop) : MsTable → Prop
  | fresh : Tries h P fun _ => none
  | run {ms : MsTable} {args : List Nat} (feed : List (List Nat × InitState)) (strict : Bool) (state : Option StateKw)
      (e : Env) : Tries h P ms → P args → (∀ l, (e.shuffle l).Perm l) →
      Tries h P (runKeep h ms args feed strict state e.pick e.shuffle e.orc e.arena).2

/-- The node is the inverse of a swap or of a controlled swap. -/
def inverseSwap (h : Heap) (x : Nat) : Bool :=
  match h.kind x with
  | .gate g true => hasSwap g
  | _ => false

/-- What the operations need, as in `NodeOK`, but inverses of swaps may occur. -/
structure TryOK (h : Heap) (args : List Nat) (x : Nat) : Prop where
  distinct : (groups h args x).flatten.Nodup
  gate : ∀ g d, h.kind x = .gate g d → h.inputs x ≠ []
  fop : ∀ f, h.kind x = .fop f → width h args ≤ 30 ∧
    (∀ i < 2 ^ ((groups h args x).getD 0 []).length, ∃ y, f i = .ok y ∧ -2 ^ 31 ≤ y ∧ y < 2 ^ 31) ∧
    (width h args = (groups h args x).flatten.length ∨
      width h args = (groups h args x).flatten.length + ((groups h args x).getD 1 []).length)

end QIP.Spec
