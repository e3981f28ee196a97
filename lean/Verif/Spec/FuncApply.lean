import Verif.Spec.Qubits

/-!
# Specification: the oracle `|x⟩|q⟩ ↦ |x⟩|q ⊕ f(x)⟩`
-/

namespace QIP.Spec

/-- `c` is the basis state mapped to `r`: equal outside register 2, and register 2 of `r` is register 2 of `c` xor
`f(x)` (lowest bits), `x` being the value of register 1. -/
def OraclePre (n : Nat) (reg1 reg2 : List Nat) (f : Nat → Int) (r c : Nat) : Prop :=
  AgreeOff n reg2 r c ∧
    subIndex n reg2 r = subIndex n reg2 c ^^^ (f (subIndex n reg1 r) % 2 ^ reg2.length).toNat

instance (n : Nat) (reg1 reg2 : List Nat) (f : Nat → Int) (r c : Nat) : Decidable (OraclePre n reg1 reg2 f r c) := by
  unfold OraclePre; infer_instance

end QIP.Spec
