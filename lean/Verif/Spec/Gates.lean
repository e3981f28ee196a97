import Verif.Spec.Tensor
import Verif.Model.Gates

/-!
# Specification: what each gate does to a state
-/

namespace QIP.Spec

open Finset

/-- 2×2 matrix of a one-qubit gate. -/
noncomputable def gateU : Gate → Bool → Bool → ℂ
  | .not, i, j | .x, i, j => if i = j then 0 else 1
  | .y, i, j => if i = j then 0 else if i then Complex.I else -Complex.I
  | .z, i, j => if i = j then if i then -1 else 1 else 0
  | .h, i, j => (if i ∧ j then -1 else 1) / (√2 : ℝ)
  | .r phi, i, j => if i = j then if i then Complex.exp (Complex.I * phi) else 1 else 0
  | .rm m negate, i, j => if i = j then if i then
      Complex.exp (Complex.I * ((if negate then -1 else 1) * (2 * Real.pi / (2 : ℝ) ^ m) : ℝ)) else 1 else 0
  | .swap _, _, _ | .c _, _, _ => 0

/-- A 2×2 matrix applied to qubit `q`. -/
noncomputable def apply1 (n q : Nat) (U : Bool → Bool → ℂ) (v : Nat → ℂ) (r : Nat) : ℂ :=
  ∑ c ∈ (range (2 ^ n)).filter (fun c => AgreeOff n [q] r c), U (qbit n r q) (qbit n c q) * v c

/-- `c` is `r` with the contents of registers `a` and `b` exchanged. -/
def Swapped (n : Nat) (a b : List Nat) (r c : Nat) : Prop :=
  AgreeOff n (a ++ b) r c ∧ subIndex n a c = subIndex n b r ∧ subIndex n b c = subIndex n a r

instance (n : Nat) (a b : List Nat) (r c : Nat) : Decidable (Swapped n a b r c) := by
  unfold Swapped; infer_instance

/-- What a gate does to an `n`-qubit state when its inputs sit at the given qubits. -/
noncomputable def gateApply (n : Nat) : Gate → List (List Nat) → (Nat → ℂ) → Nat → ℂ
  | .swap _, gs, v => fun r =>
    ∑ c ∈ (range (2 ^ n)).filter (fun c => Swapped n (gs.getD 0 []) (gs.getD 1 []) r c), v c
  | .c op, gs, v => fun r => if qbit n r ((gs.getD 0 []).getD 0 0) then gateApply n op gs.tail v r else v r
  | g, gs, v => gs.flatten.foldr (fun q w => apply1 n q (gateU g) w) v

/-- The inputs suit the gate (as enforced by the constructors): swap takes two registers of its size, a controlled
gate one control qubit first, one-qubit gates at least one qubit. -/
def Fits : Gate → List (List Nat) → Prop
  | .swap k, gs => ∃ a b, gs = [a, b] ∧ a.length = k ∧ b.length = k
  | .c op, gs => ∃ q rest, gs = [q] :: rest ∧ Fits op rest
  | _, gs => gs.flatten ≠ []

/-- The gate contains a swap (then `dagger` fails). -/
def hasSwap : Gate → Bool
  | .swap _ => true
  | .c op => hasSwap op
  | _ => false

/-- Squared norm of a state. -/
noncomputable def norm2 (v : List ℂ) : ℝ := (v.map Complex.normSq).sum

end QIP.Spec
