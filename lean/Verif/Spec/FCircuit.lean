import Verif.Model.FCircuit
import Verif.Spec.Born
import Verif.Spec.FMeasure
import Verif.Spec.Rounding

/-!
# Specification: circuits with measurements in rounded arithmetic
-/

namespace QIP.Spec

open QIP

variable {A : Arith}

/-- A step of a circuit: a gate or its inverse, an oracle, a measurement. -/
inductive QStep
  | gate (g : Gate) (back : Bool) (gs : List (List Nat))
  | func (reg1 reg2 : List Nat) (f : Nat → Except PyErr Int)
  | measure (indices : List Nat)

/-- What a step other than a measurement does to the state. -/
noncomputable def stepApply (n : Nat) : QStep → (Nat → ℂ) → Nat → ℂ
  | .gate g false gs, v => gateApply n g gs v
  | .gate g true gs, v => adjApply n g gs v
  | .func reg1 reg2 f, v => fun r => ∑ c ∈ (Finset.range (2 ^ n)).filter (fun c => OraclePre n reg1 reg2 (fval f) r c), v c
  | .measure _, v => v

/-- The steps one after the other, if the measurements give these outcomes; states are not normalised. -/
noncomputable def branchOf (n : Nat) : List QStep → List Nat → (Nat → ℂ) → Nat → ℂ
  | [], _, v => v
  | .measure idx :: rest, os, v => branchOf n rest os.tail (project n idx (os.headD 0) v)
  | s :: rest, os, v => branchOf n rest os (stepApply n s v)

/-- The number of measurements. -/
def countMeasures : List QStep → Nat
  | [] => 0
  | .measure _ :: rest => countMeasures rest + 1
  | _ :: rest => countMeasures rest

/-- Born's rule: the probability that the measurements give these outcomes. -/
noncomputable def branchProb (n : Nat) (steps : List QStep) (os : List Nat) (v : Nat → ℂ) : ℝ :=
  totalProb n (branchOf n steps os v) / totalProb n v

/-- The call performs the step: with matrices whose entries are right up to `t` roundings any schedule of the threads and
any order of the sums. -/
inductive Performs (A : Arith) (t n : Nat) : FCall A → QStep → Prop
  | gate {g back gs mats matsF sched call} (hm : g.feedMats back gs = .ok mats)
      (hF : List.Forall₂ (fun (a : Key × Mat (FC A)) (b : Key × Mat ℂ) => a.1 = b.1 ∧ MatNear t a.2 b.2) matsF mats)
      (hs : sched.Perm (List.range (2 ^ n))) : Performs A t n (.kron matsF sched call) (.gate g back gs)
  | func {reg1 reg2 f order garb} (ho : order.Perm (faCounters n reg1 reg2)) :
      Performs A t n (.func reg1 reg2 f order garb) (.func reg1 reg2 f)
  | measure {indices} : Performs A t n (.measure indices) (.measure indices)

/-- The numbers of a state. -/
def ampsOf (b : FState A) (c : Nat) : ℂ := (b.state.getD c 0).val

/-- The draws in `[0, 1)` with which the calls succeed and the measurements give the outcomes `os`. -/
def drawsFor (F : FOps) (calls : List (FCall A)) (b : FState A) (os : List Nat) : Set (Fin os.length → ℝ) :=
  {x | (∀ i, 0 ≤ x i ∧ x i < 1) ∧ ∃ b', floatRun F calls (List.ofFn x) b = .ok (os, b')}

/-- The factor by which one step increases the bound of the error. -/
noncomputable def stepErr (uG uM : ℝ) (t n : Nat) : QStep → ℝ
  | .gate _ _ gs => (1 + gateErr uG t gs.flatten.length) ^ 2
  | .func _ _ _ => 1
  | .measure idx => (factor uM ^ (2 ^ (n - idx.length) + 4)) ^ 2 + 2 * drawErr uM n

/-- Bound of the error of a circuit; `uG` and `uM` are the accuracies of the arithmetics of gates and measurements. -/
noncomputable def circuitErr (uG uM : ℝ) (t n : Nat) (steps : List QStep) : ℝ := (steps.map (stepErr uG uM t n)).prod - 1

/-! ## With underflow and overflow -/

/-- The error of the state after a measurement of `k` qubits whose outcome has a probability above `low`. -/
noncomputable def collapseErrR (u eta low : ℝ) (n k : Nat) : ℝ :=
  factor (u + 4 * eta) ^ (2 ^ (n - k) + 4) * factor (drawTiny u eta n / low) - 1 + √(2 ^ n) * eta

/-- The factor by which one step increases the bound of the error.  The last term is for outcomes with a probability of at most `low`. -/
noncomputable def stepErrR (uG etaG uM etaM low : ℝ) (t n : Nat) : QStep → ℝ
  | .gate _ _ gs => (1 + (gateErr uG t gs.flatten.length + 2 * gateTiny etaG n gs.flatten.length)) ^ 2
  | .func _ _ _ => 1
  | .measure idx => (1 + collapseErrR uM etaM low n idx.length) ^ 2 + 2 * (drawErr uM n + 2 * drawTiny uM etaM n) + 4 * √low

/-- Bound of the error of a circuit; `uG`, `etaG` and `uM`, `etaM` are the relative and absolute accuracies of the arithmetics of gates and
measurements. -/
noncomputable def circuitErrR (uG etaG uM etaM low : ℝ) (t n : Nat) (steps : List QStep) : ℝ :=
  (steps.map (stepErrR uG etaG uM etaM low t n)).prod - 1

end QIP.Spec
