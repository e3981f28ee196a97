import Verif.Spec.Tensor
import Verif.Model.Mat

/-!
# Specification: the mathematical matrix denoted by a matrix object
-/

namespace QIP.Spec

variable {R : Type} [CommSemiring R]

/-- Number of rows of the matrix object. -/
def matSize : Mat R → Nat
  | .dense r _ _ => r
  | .cmat m => 2 * matSize m
  | .swap n => 2 ^ (2 * n)

/-- The matrix denoted by a matrix object: row-major data, controlled matrix, register swap. -/
def matEntry : Mat R → Nat → Nat → R
  | .dense _ c d, i, j => d.getD (i * c + j) 0
  | .cmat m, i, j => ctrlEntry (matSize m) (matEntry m) i j
  | .swap k, i, j => swapEntry k i j

/-- The operator denoted by a list of (qubits, matrix object). -/
def denote (mats : List (List Nat × Mat R)) : List (List Nat × (Nat → Nat → R)) :=
  mats.map fun gm => (gm.1, matEntry gm.2)

end QIP.Spec
