import Mathlib.Algebra.BigOperators.Group.Finset.Basic
import Mathlib.Data.Complex.Basic
import Verif.Spec.Qubits

/-!
# Specification: outcome probabilities
-/

namespace QIP.Spec

open Finset

/-- The measured qubits in increasing order. -/
def inOrder (n : Nat) (indices : List Nat) : List Nat := (List.range n).filter fun q => q ∈ indices

/-- The other qubits in increasing order. -/
def remaining (n : Nat) (indices : List Nat) : List Nat := (List.range n).filter fun q => q ∉ indices

/-- Probability of reading `m` on the measured qubits (in increasing order, first one most significant). -/
noncomputable def outcomeProb (n : Nat) (indices : List Nat) (v : Nat → ℂ) (m : Nat) : ℝ :=
  ∑ c ∈ (range (2 ^ n)).filter (fun c => subIndex n (inOrder n indices) c = m), Complex.normSq (v c)

/-- Squared norm. -/
noncomputable def totalProb (n : Nat) (v : Nat → ℂ) : ℝ := ∑ c ∈ range (2 ^ n), Complex.normSq (v c)

end QIP.Spec
