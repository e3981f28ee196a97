import Verif.Model.FDistCircuit
import Verif.Spec.DistBorn
import Verif.Spec.FCircuit
import Verif.Spec.FDist

/-!
# Specification: circuits on several workers in rounded arithmetic
-/

namespace QIP.Spec

open QIP MeasureTheory

variable {A : Arith}

/-- The request performs the step: with matrices whose entries are right up to `t` roundings, any schedule of the threads, any content of
the output buffers, any order of the sums and of the connections. -/
inductive DPerforms (A : Arith) (t n K size : Nat) : DCall A → QStep → Prop
  | gate {g back gs mats matsF run arena sched order} (hm : g.feedMats back gs = .ok mats)
      (hF : List.Forall₂ (fun (a : Key × Mat (FC A)) (b : Key × Mat ℂ) => a.1 = b.1 ∧ MatNear t a.2 b.2) matsF mats)
      (hs : ∀ i j, (sched i j).Perm (List.range size)) (ha : ∀ i j, (arena i j).length = size)
      (ho : ∀ j < K, (j :: order j).Perm (List.range K)) :
      DPerforms A t n K size (.kron matsF run arena sched order) (.gate g back gs)
  | measure {indices arena} (ha : ∀ i < K, (arena i).length = size) : DPerforms A t n K size (.measure indices arena) (.measure indices)

/-- The random numbers of `k` measurements: those of the manager and of the diagonal workers. -/
noncomputable def measureDraws {k : Nat} (x : Fin k → JobDraw → ℝ) : List (ℝ × (Nat → ℝ)) :=
  List.ofFn fun i => (x i (.inl 0), fun w => x i (.inr ((w, w), 0)))

/-- Independent random numbers for every measurement. -/
noncomputable def circuitLaw (k : Nat) : Measure (Fin k → JobDraw → ℝ) := Measure.pi fun _ => jobLaw

/-- The random numbers with which the job succeeds and the measurements give the outcomes `os`. -/
def distDrawsFor (F : FOps) (n K size : Nat) (calls : List (DCall A)) (v : List (FC A)) (os : List Nat) : Set (Fin os.length → JobDraw → ℝ) :=
  {x | ∃ v', distRunF F n K size calls (measureDraws x) v = (os, .ok v')}

/-- The random numbers with which the measurements choose the outcomes `os` until the workers reject the probability of one of them. -/
def distRejected (F : FOps) (n K size : Nat) (calls : List (DCall A)) (v : List (FC A)) (os : List Nat) : Set (Fin os.length → JobDraw → ℝ) :=
  {x | ∃ os', os' <+: os ∧ os' ≠ [] ∧ distRunF F n K size calls (measureDraws x) v = (os', .error .valueError)}

/-- The error of the state after a measurement of `k` of `n` qubits on `K` diagonal workers. -/
noncomputable def collapseErrD (u : ℝ) (n K k : Nat) : ℝ := factor u ^ (2 ^ (n - k) + 4 + K) - 1

/-- The factor by which one step increases the bound of the error. -/
noncomputable def stepErrD (uG uM : ℝ) (t n K : Nat) : QStep → ℝ
  | .gate _ _ gs => (1 + gateErrD uG t gs.flatten.length K) ^ 6
  | .func _ _ _ => 1
  | .measure idx => ((1 + collapseErrD uM n K idx.length) ^ 2 + 4 * K * (factor uM ^ (2 ^ n + 1) - 1) + 2 * drawErr uM n)
      * (1 + collapseErrD uM n K idx.length) ^ 4

/-- Bound of the error of a circuit on a state whose squared norm is 1 up to `q`; `uG` and `uM` are the accuracies of the arithmetics of
gates and measurements. -/
noncomputable def circuitErrD (uG uM : ℝ) (t n K : Nat) (q : ℝ) (steps : List QStep) : ℝ :=
  (1 + q) ^ 2 * (steps.map (stepErrD uG uM t n K)).prod - 1

/-- None of the measurements on the way of the outcomes `os` has an outcome that is nearly certain: given those before, each has at most
the probability `1 - δ`. -/
def Undecided (δ : ℝ) (n : Nat) : List QStep → List Nat → (Nat → ℂ) → Prop
  | [], _, _ => True
  | .measure idx :: rest, os, v => outcomeProb n idx v (os.headD 0) ≤ (1 - δ) * totalProb n v ∧
      Undecided δ n rest os.tail (project n idx (os.headD 0) v)
  | s :: rest, os, v => Undecided δ n rest os (stepApply n s v)

/-- The error of the probability of a combination of outcomes none of which is nearly certain, including the probability that one of them
is rejected; `X` is that of `circuitErrD`. -/
noncomputable def acceptErr (δ X : ℝ) : ℝ := X * (3 + X) + (10 * X / δ) ^ 2

end QIP.Spec
