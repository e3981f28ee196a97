import Mathlib.Data.Nat.Bitwise

/-!
# Specification: qubits of a basis index
-/

namespace QIP.Spec

/-- Value of qubit `q` in basis state `r` of an `n`-qubit register; qubit 0 is the most significant bit. -/
def qbit (n r q : Nat) : Bool := r.testBit (n - 1 - q)

/-- The number spelled by a list of bits, most significant first. -/
def bitsVal (bs : List Bool) : Nat := bs.foldl (fun a b => 2 * a + b.toNat) 0

/-- The number spelled by the qubits listed in `g` (first listed most significant) in basis state `r`. -/
def subIndex (n : Nat) (g : List Nat) (r : Nat) : Nat := bitsVal (g.map (qbit n r))

/-- Two basis states agree on every qubit not listed in `S`. -/
def AgreeOff (n : Nat) (S : List Nat) (r c : Nat) : Prop :=
  ∀ q < n, q ∉ S → qbit n r q = qbit n c q

instance (n : Nat) (S : List Nat) (r c : Nat) : Decidable (AgreeOff n S r c) := by
  unfold AgreeOff; infer_instance

end QIP.Spec
