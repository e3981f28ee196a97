import Mathlib.Analysis.Complex.Norm
import Mathlib.Data.Int.Log
import Mathlib.Algebra.Order.Round
import Verif.Model.Kron

/-!
# Rounded complex arithmetic (`double complex` in `qip/ext/kronprod.pyx`, `numpy.complex128`)

The kernels of `Model/Kron` are written for any type with an addition and a multiplication.  Here is the type of rounded
complex numbers at which they are the floating-point computation: the same loops, every sum and product rounded.  `-ffast-math`
(setup.py:42) moreover lets the compiler reorder the sum over the columns of a row and fuse its multiplications and additions: the
kernel is therefore given once more (`kronselectDotF`), with the sum of a row left to the arithmetic.
-/

namespace QIP

/-- A complex arithmetic: its operations, and three numbers that say how accurate it is (`Ideal`, `Ranged`). -/
structure Arith where
  add : ℂ → ℂ → ℂ
  mul : ℂ → ℂ → ℂ
  /-- `∑ p * v` as compiled: in call `run` of the kernel, for the row `row`. -/
  dot (run row : Nat) : List (ℂ × ℂ) → ℂ
  u : ℝ
  u_nonneg : 0 ≤ u
  eta : ℝ
  eta_nonneg : 0 ≤ eta
  big : ℝ

/-- Relative rounding error at most `u` per operation, whatever the numbers: exponents are unbounded. -/
class Arith.Ideal (A : Arith) : Prop where
  add_err : ∀ x y, ‖A.add x y - (x + y)‖ ≤ A.u * ‖x + y‖
  mul_err : ∀ x y, ‖A.mul x y - x * y‖ ≤ A.u * ‖x * y‖
  dot_err : ∀ run row L, ‖A.dot run row L - (L.map fun t => t.1 * t.2).sum‖
    ≤ ((1 + A.u) ^ (L.length + 1) - 1) * (L.map fun t => ‖t.1‖ * ‖t.2‖).sum

/-- With underflow and overflow: products have relative error at most `u` and absolute error at most `eta` (underflow) if they are
below `big`, sums of products accordingly.  Nothing is known about results above `big` (overflow). -/
class Arith.Ranged (A : Arith) : Prop where
  mul_err : ∀ x y, ‖x‖ * ‖y‖ ≤ A.big → ‖A.mul x y - x * y‖ ≤ A.u * ‖x * y‖ + A.eta
  dot_err : ∀ run row L, (1 + A.u) ^ (L.length + 1) ≤ 2 → (L.map fun t => ‖t.1‖ * ‖t.2‖).sum ≤ A.big →
    ‖A.dot run row L - (L.map fun t => t.1 * t.2).sum‖
      ≤ ((1 + A.u) ^ (L.length + 1) - 1) * (L.map fun t => ‖t.1‖ * ‖t.2‖).sum + A.eta * (L.length + 1)

/-- A number of the arithmetic `A`. -/
@[ext] structure FC (A : Arith) where
  val : ℂ

namespace FC

variable {A : Arith}

instance : Zero (FC A) := ⟨⟨0⟩⟩
instance : One (FC A) := ⟨⟨1⟩⟩
instance : Add (FC A) := ⟨fun x y => ⟨A.add x.val y.val⟩⟩
instance : Mul (FC A) := ⟨fun x y => ⟨A.mul x.val y.val⟩⟩
noncomputable instance : DecidableEq (FC A) := Classical.decEq _

end FC

variable {A : Arith}

/-- The terms `p * vec[...]` that the loop over the columns adds up in row `row`, kronprod.pyx:159-198 (cf. `cdotRow`).  The
products `p` are computed one factor after the other, as the loop is left when `p` is 0 (line 186). -/
noncomputable def rowTerms (mats : List (List Nat × Mat (FC A))) (vec : List (FC A)) (n inOff row : Nat) :
    Except PyErr (List (FC A × FC A)) :=
  (cdotCols (sortedSet (mats.flatMap (·.1))) n row).foldlM (fun ts col => do
    if col < inOff ∨ col - inOff ≥ vec.length then pure ts
    else do
      let p ← cEntryProduct n row col mats 1
      pure (ts ++ [(p, vec.getD (col - inOff) 0)])) []

/-- One row, kronprod.pyx:157-200, with the sum as compiled. -/
noncomputable def cdotRowF (run : Nat) (mats : List (List Nat × Mat (FC A))) (vec : List (FC A)) (n inOff row : Nat) :
    Except PyErr (FC A) := do
  let ts ← rowTerms mats vec n inOff row
  pure ⟨A.dot run row (ts.map fun t => (t.1.val, t.2.val))⟩

/-- `cdot_loop`, kronprod.pyx:41-200 (cf. `cdotLoop`). -/
noncomputable def cdotLoopF (run : Nat) (sched : List Nat) (mats : List (List Nat × Mat (FC A))) (vec : List (FC A)) (n : Nat)
    (out : List (FC A)) (inOff outOff : Nat) : Except PyErr (List (FC A)) :=
  if out ≠ [] ∧ ∃ q ∈ mats.flatMap (·.1), n ≤ q then .error .ub
  else sched.foldlM (fun o outputrow => do
    let s ← cdotRowF run mats vec n inOff (outputrow + outOff)
    pure (o.set outputrow s)) out

/-- `kronselect_dot`, qip/util.py:15-67, with the compiled kernel (cf. `kronselectDot`). -/
noncomputable def kronselectDotF (run : Nat) (mats : List (Key × Mat (FC A))) (vec : List (FC A)) (n : Nat) (out : List (FC A))
    (inOff outOff : Nat) (sched : List Nat) : Except PyErr (List (FC A)) :=
  if vec.length + inOff > 2 ^ n then .error .valueError
  else if out.length + outOff > 2 ^ n then .error .valueError
  else do
    let new ← normMats mats
    if new = [] ∨ ∃ gm ∈ new, ∃ gm' ∈ new, gm.1.length ≠ gm'.1.length then .error .valueError
    else cdotLoopF run sched new vec n out inOff outOff

/-- Sum of `double complex` numbers: real and imaginary parts. -/
def addWith (fl : ℝ → ℝ) (x y : ℂ) : ℂ := ⟨fl (x.re + y.re), fl (x.im + y.im)⟩

/-- Product of `double complex` numbers, as compiled with `-ffast-math` (setup.py:42; without the recovery of infinities of C99
Annex G): every product, difference and sum is rounded. -/
def mulWith (fl : ℝ → ℝ) (x y : ℂ) : ℂ :=
  ⟨fl (fl (x.re * y.re) - fl (x.im * y.im)), fl (fl (x.re * y.im) + fl (x.im * y.re))⟩

/-- Rounding to 53 significant bits (binary64 with unbounded exponents; ties are rounded up). -/
noncomputable def round53 (x : ℝ) : ℝ := round (x / 2 ^ (Int.log 2 |x| - 52)) * 2 ^ (Int.log 2 |x| - 52)

/-- Rounding to binary64 with the smallest normal number `2 ^ -1022`: smaller results are flushed to zero, as `-ffast-math` makes
the processor do.  Above `2 ^ 1023` the result is something (there is no infinity among the reals). -/
noncomputable def round64 (x : ℝ) : ℝ := if |x| < 1 / 2 ^ 1022 then 0 else if 2 ^ 1023 < |x| then 7 else round53 x

end QIP
