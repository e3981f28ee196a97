import Mathlib.Analysis.SpecialFunctions.Complex.Circle
import Mathlib.Analysis.SpecialFunctions.Trigonometric.Basic

/-!
# Specification: the distribution of the number measured in Shor's algorithm
-/

namespace QIP.Spec

open Finset

/-- Period finding with `q = 2^m`: the probability of measuring `k`,
`1/q² ∑_y |∑_{i < q, x^i mod N = y} exp(2πi·ik/q)|²`. -/
noncomputable def peakProb (m x N k : Nat) : ℝ :=
  1 / ((2 : ℝ) ^ m) ^ 2 * ∑ y ∈ range N, Complex.normSq (∑ i ∈ (range (2 ^ m)).filter (fun i => x ^ i % N = y),
    Complex.exp (2 * Real.pi * Complex.I * (i * k) / 2 ^ m))

/-- `s` is the period of `x` modulo `N`. -/
def IsPeriod (x N s : Nat) : Prop := 0 < s ∧ ∀ i, x ^ i % N = 1 % N ↔ s ∣ i

/-- The number nearest to `d q / s`. -/
def nearest (q s d : Nat) : Nat := (2 * d * q + s) / (2 * s)

/-- A fraction `d/r` in lowest terms strictly between `1/r` and 1, with an even denominator below `q`. -/
def Accepted (q : Nat) (p : Int × Int) : Prop := 1 < p.1 ∧ p.1 < p.2 ∧ p.2 < q ∧ p.2 % 2 = 0 ∧ Int.gcd p.1 p.2 = 1

/-- The numbers `random.randint(2, N - 1)` can draw, each with the same probability. -/
def choices (N : Nat) : Finset Nat := Finset.Icc 2 (N - 1)

end QIP.Spec
