import Mathlib.Algebra.BigOperators.Group.List.Basic
import Mathlib.Data.Complex.Basic
import Verif.Spec.Qubits

/-!
# Specification: initial product states
-/

namespace QIP.Spec

/-- Amplitude of basis state `r` when the qubit groups hold the given vectors and all other qubits are 0. -/
noncomputable def initAmp (n : Nat) (groups : List (List Nat)) (vecs : List (List ℂ)) (r : Nat) : ℂ :=
  if ∀ q < n, q ∉ groups.flatten → qbit n r q = false then
    ((groups.zip vecs).map fun gv => gv.2.getD (subIndex n gv.1 r) 0).prod
  else 0

end QIP.Spec
