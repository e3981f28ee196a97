import Verif.Model.CKernel
import Verif.Model.Measure

/-!
# The measurement kernels with C ints (`qip/ext/kronprod.pyx:238-490`, `qip/ext/util.pyx`)

The functions of `Model/Measure` again, with `int` variables as 32-bit words and every shift, addition and access to memory
checked as in `Model/CKernel`: undefined behaviour is `PyErr.ub`.  A `long` variable is a natural number below 2 ^ 63; passed
to a function that takes an `int` it loses its high bits.  `2**k` of C numbers is computed as a `long` (Cython's power helper)
and cut off when it is assigned to an `int`.  The variables that are assigned and never used (`iter_num` and `m` of
`soft_measure`, 342 and 350) are left out of the functions; `iterNumC` is the value of the first.  Amplitudes are exact numbers.
-/

namespace QIP.C32

open QIP

/-- `a << k`. -/
def shl (a k : CInt) : Except PyErr CInt :=
  if 0 ≤ k.toInt ∧ k.toInt < 32 then fits (a.toInt * 2 ^ k.toNat) (a <<< k.toNat) else .error .ub

/-- `a >> k`. -/
def shr (a k : CInt) : Except PyErr CInt :=
  if 0 ≤ k.toInt ∧ k.toInt < 32 then .ok (a.sshiftRight k.toNat) else .error .ub

/-- `max(0, a)`. -/
def max0 (a : CInt) : CInt := if a.toInt < 0 then 0 else a

/-- `2**k` as a `long`. -/
def pow2L (k : CInt) : Except PyErr Nat := if 0 ≤ k.toInt ∧ k.toInt < 63 then .ok (2 ^ k.toNat) else .error .ub

/-- Loop state of `entwine_bit`, util.pyx:2-7. -/
structure EntSt where
  nI : CInt
  nN : CInt
  maskI : CInt
  maskN : CInt
  select : CInt
  m : CInt

/-- One iteration of the loop of `entwine_bit`, util.pyx:9-22, with checks. -/
def entwineStepI (n vI vN mask : CInt) (s : EntSt) (j : CInt) : Except PyErr EntSt := do
  let m ← shl s.m 1
  let n1 ← sub n 1
  let k ← sub n1 j
  let c ← shr (mask &&& s.select) k
  if c ≠ 0 then do
    let nI ← sub s.nI 1
    let b ← shr (vI &&& s.maskI) nI
    let m ← add m b
    .ok { s with nI := nI, m := m, maskI := s.maskI.sshiftRight 1, select := s.select.sshiftRight 1 }
  else do
    let nN ← sub s.nN 1
    let b ← shr (vN &&& s.maskN) nN
    let m ← add m b
    .ok { s with nN := nN, m := m, maskN := s.maskN.sshiftRight 1, select := s.select.sshiftRight 1 }

/-- `entwine_bit`, util.pyx:2-23, with checks. -/
def entwineI (nI nN vI vN mask : CInt) : Except PyErr CInt := do
  let n ← add nI nN
  let a ← sub nI 1
  let maskI ← shl 1 (max0 a)
  let b ← sub nN 1
  let maskN ← shl 1 (max0 b)
  let c ← sub n 1
  let select ← shl 1 c
  let s ← (cRange n).foldlM (entwineStepI n vI vN mask) ⟨nI, nN, maskI, maskN, select, 0⟩
  .ok s.m

/-- `a[i] = x` without bounds check. -/
def write {α : Type} (a : List α) (i : CInt) (x : α) : Except PyErr (List α) :=
  if i.toInt < 0 ∨ ¬ i.toNat < a.length then .error .ub else .ok (a.set i.toNat x)

/-- The loops that build `row_mask`, kronprod.pyx:288-290, 368-369, 432-433, 479-480. -/
def rowMaskC (n : CInt) (indices : List CInt) : Except PyErr CInt :=
  (cRange (trunc indices.length)).foldlM (fun m i => do
    let q ← read indices i
    let n1 ← sub n 1
    let b ← sub n1 q
    setBitI m b 1) 0

/-- `p_index`, kronprod.pyx:256-259; `i` and `j` are `long`. -/
def probIndexC (n : CInt) (indices : List CInt) (i : Nat) : Except PyErr CInt :=
  (List.range (trunc indices.length).toInt.toNat).foldlM (fun p j => do
    match indices[j]? with
    | none => .error .ub
    | some q =>
      let n1 ← sub n 1
      let b ← sub n1 q
      let v ← getBitI (trunc i) b
      setBitI p (trunc j) v) 0

/-- `measure_probabilities`, kronprod.pyx:238-261.  The arguments `indices` come from `numpy.asarray(indices, dtype=numpy.int32)`,
qip/backend.py:163. -/
noncomputable def measureProbabilitiesC (indices : List Nat) (n : Nat) (vec : List ℂ) : Except PyErr (List ℝ) := do
  let idx ← indices.mapM ofPy
  let n' ← ofPy n
  let iterNum ← pow2L n'
  (List.range iterNum).foldlM (fun p i =>
    match vec[i]? with
    | none => .error .ub
    | some x =>
      if x = 0 then .ok p
      else do
        let pi ← probIndexC n' idx i
        let old ← read p pi
        write p pi (old + Complex.normSq x)) (List.replicate (2 ^ indices.length) 0)

/-- The `while` loop of the heap insertion, kronprod.pyx:303-308, with `heap_pos` and `heap_parent`. -/
noncomputable def bubbleC : Nat → List (Nat × ℝ) → CInt → CInt → Except PyErr (List (Nat × ℝ))
  | 0, _, _, _ => .error .diverges
  | fuel + 1, heap, pos, parent =>
    if pos.toInt > 0 then do
      let x ← read heap pos
      let y ← read heap parent
      if x.2 > y.2 then do
        let heap ← write heap pos y
        let heap ← write heap parent x
        let p1 ← sub parent 1
        bubbleC fuel heap parent (p1.sshiftRight 1)
      else .ok heap
    else .ok heap

/-- Probability of one outcome, kronprod.pyx:287-295; `m` and `j` are `long`. -/
noncomputable def topProbC (n : CInt) (idx : List CInt) (lenI lenN : CInt) (unmeasured : Nat) (vec : List ℂ) (m : Nat) :
    Except PyErr ℝ := do
  let mask ← rowMaskC n idx
  (List.range unmeasured).foldlM (fun p j => do
    let vi ← entwineI lenI lenN (trunc m) (trunc j) mask
    let x ← read vec vi
    pure (p + Complex.normSq x)) 0

/-- One outcome of `measure_top_probabilities`, kronprod.pyx:286-311; `topK` is the C int. -/
noncomputable def topStepC (prob : Nat → Except PyErr ℝ) (topK : CInt) (st : List (Nat × ℝ) × CInt) (m : Nat) :
    Except PyErr (List (Nat × ℝ) × CInt) := do
  let p ← prob m
  let old ← read st.1 st.2
  let e1 ← sub st.2 1
  let heap ← if p ≥ old.2 then do
      let heap ← write st.1 st.2 (m, p)
      bubbleC (st.2.toNat + 1) heap st.2 (e1.sshiftRight 1)
    else .ok st.1
  let e ← if st.2.toInt < topK.toInt then add st.2 1 else .ok st.2
  .ok (heap, e)

/-- `measure_top_probabilities`, kronprod.pyx:264-315. -/
noncomputable def measureTopProbabilitiesC (indices : List Nat) (n topK : Nat) (vec : List ℂ) :
    Except PyErr (List Nat × List ℝ) := do
  let idx ← indices.mapM ofPy
  let n' ← ofPy n
  let k ← ofPy topK
  let k ← ofPy (min k.toNat (2 ^ indices.length))
  let lenI := trunc indices.length
  let lenN ← sub n' lenI
  let iterNum ← pow2L lenI
  let unmeasured ← pow2L lenN
  let (heap, _) ← (List.range iterNum).foldlM (topStepC (topProbC n' idx lenI lenN unmeasured vec) k)
    (List.replicate k.toNat (0, 0), 0)
  let sorted := heap.mergeSort fun a b => decide (a.2 ≥ b.2)
  .ok (sorted.map (·.1), sorted.map (·.2))

/-- `prob_magnitude`, kronprod.pyx:320-326: the loop variable is an `int`. -/
noncomputable def probMagnitudeC (garbage : ℝ) (vec : List ℂ) : Except PyErr ℝ :=
  (List.range vec.length).foldlM (fun acc i => do
    let x ← read vec (trunc i)
    pure (acc + Complex.normSq x)) garbage

/-- The inner loop of `soft_measure`, kronprod.pyx:372-376. -/
noncomputable def softAccC (lenI lenN unmeasured mask inOff : CInt) (vec : List ℂ) (p : CInt) : Except PyErr ℝ :=
  (cRange unmeasured).foldlM (fun acc i => do
    let vi ← entwineI lenI lenN p i mask
    if inOff.toInt ≤ vi.toInt ∧ vi.toInt < vec.length + inOff.toInt then do
      let a ← sub vi inOff
      let x ← read vec a
      pure (acc + Complex.normSq x)
    else pure acc) 0

/-- The outer loop of `soft_measure`, kronprod.pyx:371-383, over the values of `p_index`.  With no value at all the
variables that are returned are uninitialised. -/
noncomputable def softLoopC (acc : CInt → Except PyErr ℝ) : List CInt → ℝ → Except PyErr (CInt × ℝ)
  | [], _ => .error .ub
  | p :: rest, r => do
    let a ← acc p
    if r - a ≤ 0 then .ok (p, a)
    else if rest = [] then .ok (p, a)
    else softLoopC acc rest (r - a)

/-- The values of `for i in range(lo, hi)`. -/
def cRangeFrom (lo hi : CInt) : List CInt := (List.range (hi.toInt - lo.toInt).toNat).map fun k => lo + BitVec.ofNat 32 k

/-- `2**vec.shape[0]`, kronprod.pyx:342, a `long`.  The result is assigned to `iter_num`, which is never used, so that compilers
leave the computation out; it is not part of `softMeasureC`. -/
def iterNumC (vec : List ℂ) : Except PyErr Nat := if vec.length < 63 then .ok (2 ^ vec.length) else .error .ub

/-- `soft_measure`, kronprod.pyx:329-383. -/
noncomputable def softMeasureC (indices : List Nat) (n : Nat) (vec : List ℂ) (measured : Option Nat) (inOff : Nat)
    (u garbage : ℝ) : Except PyErr (CInt × ℝ) := do
  let idx ← indices.mapM ofPy
  let n' ← ofPy n
  let inOff' ← ofPy inOff
  let lenI := trunc indices.length
  let lenN ← sub n' lenI
  let nM ← pow2L lenI
  let nU ← pow2L lenN
  let range ← match measured with
    | none => pure (cRangeFrom 0 (trunc nM))
    | some m => do
      let lo ← ofPy m
      let hi ← ofPy (m + 1)
      pure (cRangeFrom lo hi)
  let two ← pow2L n'
  let r ← if indices.length < two then do
      let t ← probMagnitudeC garbage vec
      pure (u * t)
    else pure u
  let mask ← rowMaskC n' idx
  softLoopC (softAccC lenI lenN (trunc nU) mask inOff' vec) range r

/-- The validation and outcome selection of `measure` and `reduce_measure`, kronprod.pyx:402-407, 424-428 (453-458, 472-476). -/
noncomputable def chooseOutcomeC (indices : List Nat) (n : Nat) (vec : List ℂ) (inOff : Nat) (measured : Option Int)
    (measuredProb : Option ℝ) (u garbage : ℝ) : Except PyErr (CInt × ℝ × ℝ) := do
  if let some m := measured then
    if ¬ (0 ≤ m ∧ m < 2 ^ indices.length) then .error .valueError
  if let some p := measuredProb then
    if ¬ (0 < p ∧ p ≤ 1) then .error .valueError
  let (m, p) ← match measured, measuredProb with
    | some m, some p => do
      let m' ← ofPy m.toNat
      pure (m', p)
    | _, _ => softMeasureC indices n vec (measured.map Int.toNat) inOff u garbage
  if p = 0 then .error .zeroDivision
  pure (m, p, √(1 / p))

/-- The smaller of two C ints. -/
def minC (a b : CInt) : CInt := if b.toInt < a.toInt then b else a
/-- The larger of two C ints. -/
def maxC (a b : CInt) : CInt := if b.toInt > a.toInt then b else a

/-- `measure`, kronprod.pyx:386-446. -/
noncomputable def measureC (indices : List Nat) (n : Nat) (vec out : List ℂ) (inOff outOff : Nat) (measured : Option Int)
    (measuredProb : Option ℝ) (u garbage : ℝ) : Except PyErr (CInt × ℝ × List ℂ) := do
  let idx ← indices.mapM ofPy
  let n' ← ofPy n
  let inOff' ← ofPy inOff
  let outOff' ← ofPy outOff
  let (m, p, mult) ← chooseOutcomeC indices n vec inOff measured measuredProb u garbage
  let nN ← sub n' (trunc indices.length)
  let mask ← rowMaskC n' idx
  let entwined ← entwineI (trunc indices.length) nN m 0 mask
  let out' ← (cRangeFrom (maxC inOff' outOff') (minC (trunc (inOff + vec.length)) (trunc (outOff + out.length)))).foldlM
    (fun (o : List ℂ) i => do
      let a ← sub i outOff'
      if (i &&& mask) ^^^ entwined ≠ 0 then write o a 0
      else do
        let b ← sub i inOff'
        let x ← read vec b
        write o a (x * (mult : ℂ))) out
  .ok (m, p, out')

/-- `reduce_measure`, kronprod.pyx:449-490. -/
noncomputable def reduceMeasureC (indices : List Nat) (n : Nat) (vec out : List ℂ) (inOff outOff : Nat) (measured : Option Int)
    (measuredProb : Option ℝ) (u garbage : ℝ) : Except PyErr (CInt × ℝ × List ℂ) := do
  let idx ← indices.mapM ofPy
  let n' ← ofPy n
  let inOff' ← ofPy inOff
  let outOff' ← ofPy outOff
  let (m, p, mult) ← chooseOutcomeC indices n vec inOff measured measuredProb u garbage
  let nN ← sub n' (trunc indices.length)
  let mask ← rowMaskC n' idx
  let hi ← add (trunc out.length) outOff'
  let out' ← (cRangeFrom outOff' hi).foldlM (fun (o : List ℂ) i => do
      let row ← entwineI (trunc indices.length) nN m i mask
      let s ← add (trunc indices.length) row
      let a ← sub i outOff'
      if row.toInt < inOff'.toInt ∨ row.toInt > s.toInt then write o a 0
      else do
        let b ← sub row inOff'
        let x ← read vec b
        write o a (x * (mult : ℂ))) out
  .ok (m, p, out')

end QIP.C32
