import Verif.Spec.FDistCircuit
import Verif.Spec.FDistMeasure

/-!
# Specification: circuits on several workers in rounded arithmetic, with underflow and overflow
-/

namespace QIP.Spec

open QIP

/-- The error of the state after a measurement of `k` of `n` qubits on `K` diagonal workers whose outcome has a probability above `low`. -/
noncomputable def collapseErrDR (u eta low : ℝ) (n K k : Nat) : ℝ :=
  factor (u + 4 * eta) ^ (2 ^ (n - k) + 4 + K) * factor (distTiny u eta n K / low) - 1 + √(2 ^ n) * eta

/-- The factor by which one step increases the bound of the error.  The term with `√low` is for outcomes with a probability of at most
`low`. -/
noncomputable def stepErrDR (uG etaG uM etaM low : ℝ) (t n K : Nat) : QStep → ℝ
  | .gate _ _ gs => (1 + (gateErrD uG t gs.flatten.length K + 2 * gateTinyD etaG n gs.flatten.length K)) ^ 6
  | .func _ _ _ => 1
  | .measure idx => ((1 + collapseErrDR uM etaM low n K idx.length) ^ 2
        + (4 * K * (factor uM ^ (2 ^ n + 1) - 1) + 4 * K * distTiny uM etaM n K + 2 * drawErr uM n) + 4 * √low)
      * (1 + collapseErrDR uM etaM low n K idx.length) ^ 4

/-- Bound of the error of a circuit on a state whose squared norm is 1 up to `q`; `uG`, `etaG` and `uM`, `etaM` are the relative and
absolute accuracies of the arithmetics of gates and measurements. -/
noncomputable def circuitErrDR (uG etaG uM etaM low : ℝ) (t n K : Nat) (q : ℝ) (steps : List QStep) : ℝ :=
  (1 + q) ^ 2 * (steps.map (stepErrDR uG etaG uM etaM low t n K)).prod - 1

/-- The gates of the circuit are in the range of the arithmetic. -/
def StepRangeD (A : Arith) (t K : Nat) : QStep → Prop
  | .gate _ _ gs => InRangeD A t gs.flatten.length K
  | _ => True

end QIP.Spec
