import Verif.Model.Measure
import Verif.Model.Float

/-!
# The measurement kernels in rounded arithmetic (`qip/ext/kronprod.pyx:238-261, 318-446`)

The functions of `Model/Measure` once more, with the operations on doubles as parameters.
-/

namespace QIP

/-- The floating-point operations of the measurement kernels. -/
structure FOps where
  add : ℝ → ℝ → ℝ
  sub : ℝ → ℝ → ℝ
  mul : ℝ → ℝ → ℝ
  div : ℝ → ℝ → ℝ
  /-- `np.sqrt` -/
  sqrt : ℝ → ℝ
  /-- `abs(z)**2` -/
  absSq : ℂ → ℝ
  /-- product of a `double complex` and a `double` -/
  scale : ℂ → ℝ → ℂ
  /-- The accumulator after a loop `acc += x` that starts with the given content and runs over the given numbers.
  With `-ffast-math` (setup.py:42) the compiler may split such a loop into several partial sums. -/
  acc : ℝ → List ℝ → ℝ

/-- Exact arithmetic. -/
noncomputable def FOps.exact : FOps where
  add x y := x + y
  sub x y := x - y
  mul x y := x * y
  div x y := x / y
  sqrt := Real.sqrt
  absSq := Complex.normSq
  scale z r := z * (r : ℂ)
  acc a L := L.foldl (· + ·) a

variable (F : FOps)

/-- `measure_probabilities`, kronprod.pyx:238-261. -/
noncomputable def measureProbabilitiesF (indices : List Nat) (n : Nat) (vec : List ℂ) : Except PyErr (List ℝ) :=
  if (∃ q ∈ indices, n ≤ q) ∨ vec.length < 2 ^ n then .error .ub
  else .ok ((List.range (2 ^ n)).foldl (fun p i =>
    if vec.getD i 0 = 0 then p
    else p.set (probIndex n indices i) (F.add (p.getD (probIndex n indices i) 0) (F.absSq (vec.getD i 0))))
    (List.replicate (2 ^ indices.length) 0))

/-- `prob_magnitude`, kronprod.pyx:320-326; `garbage` is the uninitialised `acc`. -/
noncomputable def probMagnitudeF (garbage : ℝ) (vec : List ℂ) : ℝ := F.acc garbage (vec.map F.absSq)

/-- The inner loop of `soft_measure`, kronprod.pyx:372-376. -/
noncomputable def softAccF (n : Nat) (indices : List Nat) (vec : List ℂ) (inOff p : Nat) : ℝ :=
  F.acc 0 (((List.range (2 ^ (n - indices.length))).filter fun i =>
      let vi := entwineBit indices.length (n - indices.length) p i (rowMask n indices)
      decide (inOff ≤ vi ∧ vi < vec.length + inOff)).map fun i =>
    F.absSq (vec.getD (entwineBit indices.length (n - indices.length) p i (rowMask n indices) - inOff) 0))

/-- The outer loop of `soft_measure`, kronprod.pyx:371-383. -/
noncomputable def softLoopF (acc : Nat → ℝ) : List Nat → ℝ → Nat × ℝ
  | [], _ => (0, 0)
  | p :: rest, r =>
    if F.sub r (acc p) ≤ 0 then (p, acc p)
    else if rest = [] then (p, acc p)
    else softLoopF acc rest (F.sub r (acc p))

/-- `soft_measure`, kronprod.pyx:329-383. -/
noncomputable def softMeasureF (indices : List Nat) (n : Nat) (vec : List ℂ) (measured : Option Nat) (inOff : Nat)
    (u garbage : ℝ) : Except PyErr (Nat × ℝ) :=
  if badIndices n indices then .error .ub
  else
    let r := if indices.length < 2 ^ n then F.mul u (probMagnitudeF F garbage vec) else u
    let range := match measured with
      | none => List.range (2 ^ indices.length)
      | some m => [m]
    .ok (softLoopF F (softAccF F n indices vec inOff) range r)

/-- The validation and outcome selection of `measure`, kronprod.pyx:402-407, 424-428. -/
noncomputable def chooseOutcomeF (indices : List Nat) (n : Nat) (vec : List ℂ) (inOff : Nat) (measured : Option Int)
    (measuredProb : Option ℝ) (u garbage : ℝ) : Except PyErr (Nat × ℝ × ℝ) := do
  if let some m := measured then
    if ¬ (0 ≤ m ∧ m < 2 ^ indices.length) then .error .valueError
  if let some p := measuredProb then
    if ¬ (0 < p ∧ p ≤ 1) then .error .valueError
  let (m, p) ← match measured, measuredProb with
    | some m, some p => pure (m.toNat, p)
    | _, _ => softMeasureF F indices n vec (measured.map Int.toNat) inOff u garbage
  if p = 0 then .error .zeroDivision
  pure (m, p, F.sqrt (F.div 1 p))

/-- `measure`, kronprod.pyx:386-446. -/
noncomputable def measureF (indices : List Nat) (n : Nat) (vec out : List ℂ) (inOff outOff : Nat)
    (measured : Option Int) (measuredProb : Option ℝ) (u garbage : ℝ) : Except PyErr (Nat × ℝ × List ℂ) := do
  let (m, p, mult) ← chooseOutcomeF F indices n vec inOff measured measuredProb u garbage
  if badIndices n indices then .error .ub
  else
    let mask := rowMask n indices
    let entwined := entwineBit indices.length (n - indices.length) m 0 mask
    let lo := max inOff outOff
    let hi := min (inOff + vec.length) (outOff + out.length)
    let out' := (List.range' lo (hi - lo)).foldl (fun (o : List ℂ) i =>
      if (i &&& mask) ^^^ entwined ≠ 0 then o.set (i - outOff) 0
      else o.set (i - outOff) (F.scale (vec.getD (i - inOff) 0) mult)) out
    .ok (m, p, out')

/-- `abs(z)**2` made of rounded operations: `hypot` (here as the square root of the sum of the squares), then squared. -/
noncomputable def absSqWith (fl : ℝ → ℝ) (z : ℂ) : ℝ :=
  let a := fl (√(fl (fl (z.re * z.re) + fl (z.im * z.im))))
  fl (a * a)

/-- The operations made of a rounding of the reals; accumulators are summed in the order `acc`. -/
noncomputable def FOps.ofRounding (fl : ℝ → ℝ) (acc : ℝ → List ℝ → ℝ) : FOps where
  add x y := fl (x + y)
  sub x y := fl (x - y)
  mul x y := fl (x * y)
  div x y := fl (x / y)
  sqrt x := fl (√x)
  absSq := absSqWith fl
  scale z r := ⟨fl (z.re * r), fl (z.im * r)⟩
  acc := acc

/-- Double precision (with unbounded exponents), accumulators summed as written. -/
noncomputable def FOps.double : FOps :=
  FOps.ofRounding round53 fun a L => L.foldl (fun s x => round53 (s + x)) a

end QIP
