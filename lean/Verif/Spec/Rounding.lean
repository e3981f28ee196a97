import Verif.Model.Float
import Verif.Model.Gates
import Verif.Spec.Gates

/-!
# Specification: gates in rounded arithmetic
-/

namespace QIP.Spec

open QIP

variable {A : Arith}

/-- `x` is `y` up to `k` roundings. -/
def Near (k : Nat) (x : FC A) (y : ℂ) : Prop := ‖x.val - y‖ ≤ ((1 + A.u) ^ k - 1) * ‖y‖

/-- The same matrix object, with entries up to `t` roundings. -/
def MatNear (t : Nat) : Mat (FC A) → Mat ℂ → Prop
  | .dense r c d, .dense r' c' d' => r = r' ∧ c = c' ∧ List.Forall₂ (Near t) d d'
  | .cmat m, .cmat m' => MatNear t m m'
  | .swap k, .swap k' => k = k'
  | _, _ => False

/-- Euclidean distance of two states of `n` qubits. -/
noncomputable def dist2 (n : Nat) (v w : Nat → ℂ) : ℝ := √(∑ r ∈ Finset.range (2 ^ n), ‖v r - w r‖ ^ 2)

/-- Gates one after the other (C72), exactly. -/
noncomputable def exactGates (n : Nat) : List (Gate × List (List Nat)) → (Nat → ℂ) → Nat → ℂ
  | [], v => v
  | g :: rest, v => exactGates n rest (gateApply n g.1 g.2 v)

/-- Gates one after the other with the compiled kernel in rounded arithmetic: matrices whose entries are right up to `t`
roundings, any schedule of the threads, any content of the output buffer, any order of the sums. -/
inductive RoundedGates (A : Arith) (t n : Nat) : List (Gate × List (List Nat)) → List (FC A) → List (FC A) → Prop
  | nil (v) : RoundedGates A t n [] v v
  | cons {g gs mats matsF sched arena run rest v v1 v2} (hm : g.feedMats false gs = .ok mats)
      (hF : List.Forall₂ (fun (a : Key × Mat (FC A)) (b : Key × Mat ℂ) => a.1 = b.1 ∧ MatNear t a.2 b.2) matsF mats)
      (hs : sched.Perm (List.range (2 ^ n))) (ha : arena.length = 2 ^ n)
      (hk : kronselectDotF run matsF v n arena 0 0 sched = .ok v1) (hrest : RoundedGates A t n rest v1 v2) :
      RoundedGates A t n ((g, gs) :: rest) v v2

/-- Relative error of one gate on `w` qubits. -/
noncomputable def gateErr (u : ℝ) (t w : Nat) : ℝ := ((1 + u) ^ ((t + 1) * (w + 1) + 1 + 2 ^ w) - 1) * √(2 ^ w)

/-- `s` is the sum of the products of the pairs, computed with the rounding `fl`: in any order and with any parentheses, every
product and every sum rounded, or a multiplication and an addition fused and rounded once. -/
inductive SumOfProducts (fl : ℝ → ℝ) : List (ℝ × ℝ) → ℝ → Prop
  | prod (x y) : SumOfProducts fl [(x, y)] (fl (x * y))
  | add {L L' s s'} (h : SumOfProducts fl L s) (h' : SumOfProducts fl L' s') : SumOfProducts fl (L ++ L') (fl (s + s'))
  | fma (x y) {L s} (h : SumOfProducts fl L s) : SumOfProducts fl ((x, y) :: L) (fl (x * y + s))
  | neg {L s} (h : SumOfProducts fl L s) : SumOfProducts fl (L.map fun t => (-t.1, t.2)) (-s)
  | perm {L L' s} (hp : L.Perm L') (h : SumOfProducts fl L s) : SumOfProducts fl L' s

/-- The real products of which the real part of `∑ x * y` consists. -/
def reTerms (L : List (ℂ × ℂ)) : List (ℝ × ℝ) := L.flatMap fun t => [(t.1.re, t.2.re), (-t.1.im, t.2.im)]

/-- The real products of which the imaginary part of `∑ x * y` consists. -/
def imTerms (L : List (ℂ × ℂ)) : List (ℝ × ℝ) := L.flatMap fun t => [(t.1.re, t.2.im), (t.1.im, t.2.re)]

/-- The absolute error of one gate on `w` of `n` qubits that is due to underflow. -/
noncomputable def gateTiny (eta : ℝ) (n w : Nat) : ℝ := √(2 ^ n) * (2 ^ w * (4 * w + 6)) * eta

/-- Gates on `w` qubits are within the range of the arithmetic: their roundings do not double a number, and sums of `8 * 2 ^ w` do
not overflow. -/
def InRange (A : Arith) (t w : Nat) : Prop :=
  (1 + A.u) ^ ((t + 1) * (w + 1) + 1 + 2 ^ w) ≤ 2 ∧ ((w + 1 : Nat) : ℝ) * A.eta ≤ 1 ∧ 8 * 2 ^ w ≤ A.big

/-- A double-precision implementation: a rounding of the reals, and products and sums of products of complex numbers
compiled to sums of products of their parts in some order.  The accumulator of a row starts at 0 (the additional term `0 * 0`)
unless the compiler leaves that out. -/
structure Double where
  fl : ℝ → ℝ
  fl_zero : fl 0 = 0
  mul : ℂ → ℂ → ℂ
  mul_re : ∀ x y, SumOfProducts fl (reTerms [(x, y)]) (mul x y).re
  mul_im : ∀ x y, SumOfProducts fl (imTerms [(x, y)]) (mul x y).im
  dot (run row : Nat) : List (ℂ × ℂ) → ℂ
  dot_re : ∀ run row L, SumOfProducts fl (reTerms L) (dot run row L).re ∨ SumOfProducts fl ((0, 0) :: reTerms L) (dot run row L).re
  dot_im : ∀ run row L, SumOfProducts fl (imTerms L) (dot run row L).im ∨ SumOfProducts fl ((0, 0) :: imTerms L) (dot run row L).im

/-- 53 bits and unbounded exponents. -/
class Double.Ideal (D : Double) : Prop where
  fl_err : ∀ x, |D.fl x - x| ≤ 1 / 2 ^ 53 * |x|

/-- 53 bits in the range of binary64; numbers below `2 ^ -1022` may be flushed to zero; nothing is known about results above
`2 ^ 1023`. -/
class Double.Ranged (D : Double) : Prop where
  fl_err : ∀ x, |x| ≤ 2 ^ 1023 → |D.fl x - x| ≤ 1 / 2 ^ 53 * |x| + 1 / 2 ^ 1022

end QIP.Spec
