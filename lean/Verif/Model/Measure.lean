import Mathlib.Data.Complex.Basic
import Mathlib.Analysis.Real.Sqrt
import Mathlib.Data.List.Nodup
import Verif.Model.CInt
import Verif.Model.Err

/-!
# Measurement kernels (`qip/ext/kronprod.pyx:238-490`) and their use in `qip/backend.py`

`abs(z)**2` is `Complex.normSq z` (exact arithmetic).  Bounds checks are disabled in this code: an access outside a
buffer is the error `ub`.  Qubit indices that are repeated or not below `n` make the code shift by negative amounts,
which is `ub` as well.
-/

namespace QIP

/-- `row_mask`, kronprod.pyx:368-369 (also 288-290, 432-433, 479-480). -/
def rowMask (n : Nat) (indices : List Nat) : Nat :=
  (List.range indices.length).foldl (fun m i => setBit m ((n - 1) - indices.getD i 0) true) 0

/-- Indices the bit manipulations are defined for. -/
def badIndices (n : Nat) (indices : List Nat) : Prop := (∃ q ∈ indices, n ≤ q) ∨ ¬ indices.Nodup

instance (n : Nat) (indices : List Nat) : Decidable (badIndices n indices) := by
  unfold badIndices; infer_instance

/-- `p_index` construction in `measure_probabilities`, kronprod.pyx:257-259. -/
def probIndex (n : Nat) (indices : List Nat) (i : Nat) : Nat :=
  (List.range indices.length).foldl (fun p j => setBit p j (getBit i ((n - 1) - indices.getD j 0))) 0

/-- `measure_probabilities`, kronprod.pyx:238-261. -/
noncomputable def measureProbabilities (indices : List Nat) (n : Nat) (vec : List ℂ) : Except PyErr (List ℝ) :=
  if (∃ q ∈ indices, n ≤ q) ∨ vec.length < 2 ^ n then .error .ub
  else .ok ((List.range (2 ^ n)).foldl (fun p i =>
    if vec.getD i 0 = 0 then p
    else p.set (probIndex n indices i) (p.getD (probIndex n indices i) 0 + Complex.normSq (vec.getD i 0)))
    (List.replicate (2 ^ indices.length) 0))

/-- The `while` loop of the heap insertion, kronprod.pyx:303-308.  The two parallel buffers `ms`, `ps` are one list
of pairs. -/
noncomputable def bubble (heap : List (Nat × ℝ)) (pos : Nat) : List (Nat × ℝ) :=
  if pos > 0 ∧ (heap.getD pos (0, 0)).2 > (heap.getD ((pos - 1) >>> 1) (0, 0)).2 then
    bubble ((heap.set pos (heap.getD ((pos - 1) >>> 1) (0, 0))).set ((pos - 1) >>> 1) (heap.getD pos (0, 0)))
      ((pos - 1) >>> 1)
  else heap
termination_by pos
decreasing_by simp only [Nat.shiftRight_one]; omega

/-- One outcome of `measure_top_probabilities`, kronprod.pyx:297-311. -/
noncomputable def topStep (prob : Nat → ℝ) (topK : Nat) (st : List (Nat × ℝ) × Nat) (m : Nat) :
    Except PyErr (List (Nat × ℝ) × Nat) :=
  match st.1[st.2]? with
  | none => .error .ub
  | some old =>
    .ok (if prob m ≥ old.2 then bubble (st.1.set st.2 (m, prob m)) st.2 else st.1,
      if st.2 < topK then st.2 + 1 else st.2)

/-- Probability of one outcome, kronprod.pyx:292-295. -/
noncomputable def topProb (n : Nat) (indices : List Nat) (vec : List ℂ) (m : Nat) : ℝ :=
  (List.range (2 ^ (n - indices.length))).foldl (fun p j =>
    p + Complex.normSq (vec.getD (entwineBit indices.length (n - indices.length) m j (rowMask n indices)) 0)) 0

/-- `measure_top_probabilities`, kronprod.pyx:264-315 (`top_k ≥ 1`).  The final `sorted(..., reverse=True)` is stable. -/
noncomputable def measureTopProbabilities (indices : List Nat) (n topK : Nat) (vec : List ℂ) :
    Except PyErr (List Nat × List ℝ) :=
  if badIndices n indices ∨ vec.length < 2 ^ n then .error .ub
  else do
    let topK' := min topK (2 ^ indices.length)
    let (heap, _) ← (List.range (2 ^ indices.length)).foldlM (topStep (topProb n indices vec) topK')
      (List.replicate topK' (0, 0), 0)
    let sorted := heap.mergeSort fun a b => decide (a.2 ≥ b.2)
    .ok (sorted.map (·.1), sorted.map (·.2))

/-- `prob_magnitude`, kronprod.pyx:320-326.  `acc` is never initialised: `garbage` is its initial value. -/
noncomputable def probMagnitude (garbage : ℝ) (vec : List ℂ) : ℝ :=
  (List.range vec.length).foldl (fun acc i => acc + Complex.normSq (vec.getD i 0)) garbage

/-- The inner loop of `soft_measure`, kronprod.pyx:372-376. -/
noncomputable def softAcc (n : Nat) (indices : List Nat) (vec : List ℂ) (inOff p : Nat) : ℝ :=
  (List.range (2 ^ (n - indices.length))).foldl (fun acc i =>
    let vi := entwineBit indices.length (n - indices.length) p i (rowMask n indices)
    if inOff ≤ vi ∧ vi < vec.length + inOff then acc + Complex.normSq (vec.getD (vi - inOff) 0) else acc) 0

/-- The outer loop of `soft_measure`, kronprod.pyx:371-383, over the remaining outcomes; if it runs to the end the
last outcome is returned.  (An empty range would return uninitialised variables; it does not occur.) -/
noncomputable def softLoop (acc : Nat → ℝ) : List Nat → ℝ → Nat × ℝ
  | [], _ => (0, 0)
  | p :: rest, r =>
    if r - acc p ≤ 0 then (p, acc p)
    else if rest = [] then (p, acc p)
    else softLoop acc rest (r - acc p)

/-- `soft_measure`, kronprod.pyx:329-383.  `u` is `random.random()`, `garbage` the uninitialised accumulator of
`prob_magnitude`. -/
noncomputable def softMeasure (indices : List Nat) (n : Nat) (vec : List ℂ) (measured : Option Nat) (inOff : Nat)
    (u garbage : ℝ) : Except PyErr (Nat × ℝ) :=
  if badIndices n indices then .error .ub
  else
    let r := if indices.length < 2 ^ n then u * probMagnitude garbage vec else u
    let range := match measured with
      | none => List.range (2 ^ indices.length)
      | some m => [m]
    .ok (softLoop (softAcc n indices vec inOff) range r)

/-- The validation and outcome selection shared by `measure` and `reduce_measure`, kronprod.pyx:402-407, 424-428
(453-458, 472-476): the outcome, its probability, and `mult_p`. -/
noncomputable def chooseOutcome (indices : List Nat) (n : Nat) (vec : List ℂ) (inOff : Nat) (measured : Option Int)
    (measuredProb : Option ℝ) (u garbage : ℝ) : Except PyErr (Nat × ℝ × ℝ) := do
  if let some m := measured then
    if ¬ (0 ≤ m ∧ m < 2 ^ indices.length) then .error .valueError
  if let some p := measuredProb then
    if ¬ (0 < p ∧ p ≤ 1) then .error .valueError
  let (m, p) ← match measured, measuredProb with
    | some m, some p => pure (m.toNat, p)
    | _, _ => softMeasure indices n vec (measured.map Int.toNat) inOff u garbage
  -- `1.0 / p` on a C double raises ZeroDivisionError (cdivision is off)
  if p = 0 then .error .zeroDivision
  pure (m, p, √(1 / p))

/-- `measure`, kronprod.pyx:386-446.  Result: outcome, probability, new content of `out`. -/
noncomputable def measure (indices : List Nat) (n : Nat) (vec out : List ℂ) (inOff outOff : Nat)
    (measured : Option Int) (measuredProb : Option ℝ) (u garbage : ℝ) : Except PyErr (Nat × ℝ × List ℂ) := do
  let (m, p, mult) ← chooseOutcome indices n vec inOff measured measuredProb u garbage
  if badIndices n indices then .error .ub
  else
    let mask := rowMask n indices
    let entwined := entwineBit indices.length (n - indices.length) m 0 mask
    let lo := max inOff outOff
    let hi := min (inOff + vec.length) (outOff + out.length)
    let out' := (List.range' lo (hi - lo)).foldl (fun (o : List ℂ) i =>
      if (i &&& mask) ^^^ entwined ≠ 0 then o.set (i - outOff) 0
      else o.set (i - outOff) (vec.getD (i - inOff) 0 * (mult : ℂ))) out
    .ok (m, p, out')

/-- `reduce_measure`, kronprod.pyx:449-490.  The test `vec_row > n_indices + vec_row` (486) is never true. -/
noncomputable def reduceMeasure (indices : List Nat) (n : Nat) (vec out : List ℂ) (inOff outOff : Nat)
    (measured : Option Int) (measuredProb : Option ℝ) (u garbage : ℝ) : Except PyErr (Nat × ℝ × List ℂ) := do
  let (m, p, mult) ← chooseOutcome indices n vec inOff measured measuredProb u garbage
  if badIndices n indices then .error .ub
  else
    let mask := rowMask n indices
    let out' ← (List.range' outOff out.length).foldlM (fun (o : List ℂ) i =>
      let row := entwineBit indices.length (n - indices.length) m i mask
      if row < inOff ∨ row > indices.length + row then .ok (o.set (i - outOff) 0)
      else if vec.length ≤ row - inOff then .error .ub
      else .ok (o.set (i - outOff) (vec.getD (row - inOff) 0 * (mult : ℂ)))) out
    .ok (m, p, out')

/-- The fields of `CythonBackend`, qip/backend.py:68-71. -/
structure BState where
  n : Nat
  state : List ℂ
  arena : List ℂ

/-- `CythonBackend.measure`, qip/backend.py:126-134: on success state and arena are exchanged; an exception leaves
both as they were (nothing is written before the last exception). -/
noncomputable def BState.measure (b : BState) (indices : List Nat) (measured : Option Int) (measuredProb : Option ℝ)
    (inOff outOff : Nat) (u garbage : ℝ) : Except PyErr (Nat × ℝ) × BState :=
  match QIP.measure indices b.n b.state b.arena inOff outOff measured measuredProb u garbage with
  | .error e => (.error e, b)
  | .ok (m, p, out) => (.ok (m, p), { b with state := out, arena := b.state })

/-- `CythonBackend.reduce_measure`, qip/backend.py:136-151 (on `ub` nothing is claimed about the new state). -/
noncomputable def BState.reduceMeasure (b : BState) (indices : List Nat) (measured : Option Int)
    (measuredProb : Option ℝ) (inOff outOff : Nat) (u garbage : ℝ) : Except PyErr (Nat × ℝ) × BState :=
  match QIP.reduceMeasure indices b.n b.state b.arena inOff outOff measured measuredProb u garbage with
  | .error e => (.error e, b)
  | .ok (m, p, out) => (.ok (m, p), { b with state := out, arena := b.state })

/-- `CythonBackend.total_prob`, qip/backend.py:123-124. -/
noncomputable def BState.totalProb (b : BState) (garbage : ℝ) : ℝ := probMagnitude garbage b.state

end QIP
