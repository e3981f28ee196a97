import Mathlib.Algebra.BigOperators.Group.Finset.Basic
import Mathlib.Algebra.BigOperators.Ring.Finset
import Verif.Spec.Qubits

/-!
# Specification: tensor product operators

A matrix is a function `Nat → Nat → R`, a state a function from basis indices.
-/

namespace QIP.Spec

variable {R : Type} [CommSemiring R]

/-- Entry `(r, c)` of the operator that applies each matrix to the qubits in its list and the identity elsewhere. -/
def kronEntry (n : Nat) (ops : List (List Nat × (Nat → Nat → R))) (r c : Nat) : R :=
  if AgreeOff n (ops.flatMap (·.1)) r c then
    (ops.map fun gm => gm.2 (subIndex n gm.1 r) (subIndex n gm.1 c)).prod
  else 0

/-- The operator applied to a state. -/
def kronApply (n : Nat) (ops : List (List Nat × (Nat → Nat → R))) (v : Nat → R) (r : Nat) : R :=
  ∑ c ∈ Finset.range (2 ^ n), kronEntry n ops r c * v c

/-- Controlled matrix: identity on the lower half (control 0), `M` (of size `d`) on the upper half (control 1). -/
def ctrlEntry (d : Nat) (M : Nat → Nat → R) (i j : Nat) : R :=
  if i < d ∧ j < d then if i = j then 1 else 0
  else if d ≤ i ∧ d ≤ j then M (i - d) (j - d)
  else 0

/-- Swap of two `k`-qubit registers: `|a⟩|b⟩ ↦ |b⟩|a⟩`. -/
def swapEntry (k : Nat) (i j : Nat) : R :=
  if i / 2 ^ k = j % 2 ^ k ∧ i % 2 ^ k = j / 2 ^ k then 1 else 0

end QIP.Spec
