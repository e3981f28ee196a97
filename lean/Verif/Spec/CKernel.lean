import Verif.Model.Mat

/-!
# Limits of the compiled kernel
-/

namespace QIP.Spec

/-- Every numpy array in a matrix object (nested `CMat`s included) acts on at most 15 qubits. -/
def DenseSmall {R : Type} : Mat R → Prop
  | .dense r c _ => r ≤ 2 ^ 15 ∧ c ≤ 2 ^ 15
  | .swap _ => True
  | .cmat m => DenseSmall m

end QIP.Spec
