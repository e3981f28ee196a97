import Verif.Model.FMeasure

/-!
# Specification: accuracy of floating-point operations
-/

namespace QIP.Spec

open QIP

/-- `x` and `y` agree up to the factor `b`. -/
def Rel (b x y : ℝ) : Prop := y ≤ x * b ∧ x ≤ y * b

/-- The largest factor between a result with relative error `u` and the exact one. -/
noncomputable def factor (u : ℝ) : ℝ := 1 / (1 - u)

/-- Every operation has relative error at most `u`, a loop accumulating `k` non-negative numbers that of `k` additions. -/
structure Accurate (F : FOps) (u : ℝ) : Prop where
  nonneg : 0 ≤ u
  lt_one : u < 1
  add : ∀ x y, |F.add x y - (x + y)| ≤ u * |x + y|
  sub : ∀ x y, |F.sub x y - (x - y)| ≤ u * |x - y|
  mul : ∀ x y, |F.mul x y - x * y| ≤ u * |x * y|
  div : ∀ x y, |F.div x y - x / y| ≤ u * |x / y|
  sqrt : ∀ x, |F.sqrt x - √x| ≤ u * √x
  absSq : ∀ z, |F.absSq z - Complex.normSq z| ≤ u * Complex.normSq z
  scale : ∀ z r, ‖F.scale z r - z * (r : ℂ)‖ ≤ u * ‖z * (r : ℂ)‖
  acc : ∀ a L, 0 ≤ a → (∀ x ∈ L, 0 ≤ x) → Rel (factor u ^ L.length) (F.acc a L) (a + L.sum)

/-- The sum of the numbers in any order and with any parentheses, every addition rounded by `fl`. -/
inductive SumOf (fl : ℝ → ℝ) : List ℝ → ℝ → Prop
  | one (x) : SumOf fl [x] x
  | add {L L' s s'} (h : SumOf fl L s) (h' : SumOf fl L' s') : SumOf fl (L ++ L') (fl (s + s'))
  | perm {L L' s} (hp : L.Perm L') (h : SumOf fl L s) : SumOf fl L' s

/-- Relative distance, in the interval of the draws, between the exact and the computed borders of the outcomes. -/
noncomputable def drawErr (u : ℝ) (n : Nat) : ℝ := 2 * (factor u ^ (2 ^ (n + 1) + 2) - 1)

/-! ## With underflow and overflow -/

/-- `x` and `y` agree up to the factor `b` and the absolute error `e` (underflow). -/
def Within (b e x y : ℝ) : Prop := y ≤ (x + e) * b ∧ x ≤ (y + e) * b

/-- Every operation has relative error at most `u` and, because of underflow, absolute error at most `eta`, if its result is not above
`big`; nothing is known about results above `big` (overflow).  Results of non-negative numbers are not negative, zero is exact, and
subtracting zero from a result does not change it. -/
structure Ranged (F : FOps) (u eta big : ℝ) : Prop where
  nonneg : 0 ≤ u
  lt_one : u < 1
  eta_nonneg : 0 ≤ eta
  add : ∀ x y, |x + y| ≤ big → |F.add x y - (x + y)| ≤ u * |x + y| + eta
  sub : ∀ x y, |x - y| ≤ big → |F.sub x y - (x - y)| ≤ u * |x - y| + eta
  mul : ∀ x y, |x * y| ≤ big → |F.mul x y - x * y| ≤ u * |x * y| + eta
  div : ∀ x y, |x / y| ≤ big → |F.div x y - x / y| ≤ u * |x / y| + eta
  sqrt : ∀ x, √x ≤ big → |F.sqrt x - √x| ≤ u * √x + eta
  absSq : ∀ z, Complex.normSq z ≤ big → |F.absSq z - Complex.normSq z| ≤ u * Complex.normSq z + eta
  scale : ∀ (z : ℂ) (r : ℝ), ‖z * (r : ℂ)‖ ≤ big → ‖F.scale z r - z * (r : ℂ)‖ ≤ u * ‖z * (r : ℂ)‖ + eta
  acc : ∀ a L, 0 ≤ a → (∀ x ∈ L, 0 ≤ x) → (a + L.sum + L.length * eta) * factor u ^ L.length ≤ big →
    Within (factor u ^ L.length) (L.length * eta) (F.acc a L) (a + L.sum)
  add_nonneg : ∀ x y, 0 ≤ x → 0 ≤ y → 0 ≤ F.add x y
  mul_nonneg : ∀ x y, 0 ≤ x → 0 ≤ y → 0 ≤ F.mul x y
  absSq_nonneg : ∀ z, 0 ≤ F.absSq z
  acc_nonneg : ∀ a L, 0 ≤ a → (∀ x ∈ L, 0 ≤ x) → 0 ≤ F.acc a L
  absSq_zero : F.absSq 0 = 0
  acc_zero : ∀ L, (∀ x ∈ L, x = 0) → F.acc 0 L = 0
  sub_zero_mul : ∀ x y, F.sub (F.mul x y) 0 = F.mul x y
  sub_zero_sub : ∀ x y, F.sub (F.sub x y) 0 = F.sub x y

/-- The part of the distance between exact and computed borders that is due to underflow. -/
noncomputable def drawTiny (u eta : ℝ) (n : Nat) : ℝ := 8 * 2 ^ n * eta * factor u ^ (2 ^ (n + 1) + 2)

end QIP.Spec
