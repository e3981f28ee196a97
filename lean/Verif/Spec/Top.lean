import Mathlib.Algebra.BigOperators.Group.List.Basic
import Mathlib.Data.Real.Basic

/-!
# Specification: what a combined report says
-/

namespace QIP.Spec

/-- Outcome `i` is in the report. -/
def Reports (r : List (Nat × ℝ)) (i : Nat) : Prop := ∃ p, (i, p) ∈ r

/-- The largest outcome of the report. -/
def MaxOutcome (r : List (Nat × ℝ)) (M : Nat) : Prop := Reports r M ∧ ∀ i, Reports r i → i ≤ M

/-- Total probability reported for an outcome. -/
noncomputable def reportedProb (rs : List (List (Nat × ℝ))) (i : Nat) : ℝ :=
  (rs.map fun r => ((r.filter fun e => e.1 = i).map Prod.snd).sum).sum

open Classical in
/-- What the workers that did not report the outcome can hide: for each its smallest reported probability. -/
noncomputable def hiddenProb (rs : List (List (Nat × ℝ) × ℝ)) (i : Nat) : ℝ :=
  (rs.map fun rm => if Reports rm.1 i then 0 else rm.2).sum

/-- `m` is the smallest probability in the report. -/
def MinProb (r : List (Nat × ℝ)) (m : ℝ) : Prop := (∃ i, (i, m) ∈ r) ∧ ∀ i p, (i, p) ∈ r → m ≤ p

end QIP.Spec
