import Verif.Model.Kron

/-!
# `cdot_loop` with C ints, C structs and pointers (`qip/ext/kronprod.pyx:16-235`)

The same kernel as `cdotLoop` of `Model/Kron`, closer to the C code: `int` variables are 32-bit words, the matrix objects are
flattened into an array of structs obtained from `malloc`, and every access to memory is checked.  Undefined behaviour (signed
overflow, shift by a negative or too large amount, access outside an array, use of uninitialised memory) is `PyErr.ub`.
-/

namespace QIP.C32

open QIP

variable {R : Type}

/-- Conversion of a Python int to a C `int` (arguments and fields of type `int`): OverflowError if it does not fit. -/
def ofPy (k : Nat) : Except PyErr CInt := if k < 2 ^ 31 then .ok (BitVec.ofNat 32 k) else .error .overflowError

/-- Assignment of a `Py_ssize_t` (`len(…)`, a shape) to an `int` variable: the low 32 bits. -/
def trunc (k : Nat) : CInt := BitVec.ofNat 32 k

/-- The result of an operation on C ints: `w` if the exact result `x` fits. -/
def fits (x : Int) (w : CInt) : Except PyErr CInt := if -2 ^ 31 ≤ x ∧ x < 2 ^ 31 then .ok w else .error .ub

/-- `a + b`. -/
def add (a b : CInt) : Except PyErr CInt := fits (a.toInt + b.toInt) (a + b)
/-- `a - b`. -/
def sub (a b : CInt) : Except PyErr CInt := fits (a.toInt - b.toInt) (a - b)
/-- `a * b`. -/
def mul (a b : CInt) : Except PyErr CInt := fits (a.toInt * b.toInt) (a * b)

/-- `set_bit`, util.pyx:25-26, with the shift amount checked. -/
def setBitI (num bit value : CInt) : Except PyErr CInt :=
  if 0 ≤ bit.toInt ∧ bit.toInt < 31 then .ok (setBit num bit.toNat value) else .error .ub

/-- `get_bit`, util.pyx:29-30, with the shift amount checked. -/
def getBitI (num bit : CInt) : Except PyErr CInt :=
  if 0 ≤ bit.toInt ∧ bit.toInt < 32 then .ok (getBit num bit.toNat) else .error .ub

/-- `2**k` of a C int (`two_nindices`, kronprod.pyx:145). -/
def pow2 (k : CInt) : Except PyErr CInt :=
  if 0 ≤ k.toInt ∧ k.toInt < 31 then .ok (1#32 <<< k.toNat) else .error .ub

/-- The values of the loop variable of `for i in range(k)`. -/
def cRange (k : CInt) : List CInt := (List.range k.toInt.toNat).map (BitVec.ofNat 32)

/-- `a[i]` without bounds check. -/
def read {α : Type} (a : List α) (i : CInt) : Except PyErr α :=
  if i.toInt < 0 then .error .ub else
  match a[i.toNat]? with
  | some x => .ok x
  | none => .error .ub

/-- `MatrixType`, kronprod.pyx:18-19 (`OTHER` raises ValueError, line 116, and is not represented, see `Mat`). -/
inductive MType where
  | numpy | cmat | swap
  deriving DecidableEq

/-- A `void*`: a Python object, the data of a numpy array, or the address of element `i` of `cmatrices`. -/
inductive Ptr (R : Type) where
  | obj
  | data (d : List R)
  | struct (i : Nat)

/-- `MatStruct`, kronprod.pyx:21-25. -/
structure MStruct (R : Type) where
  mattype : MType
  param : CInt
  ptr : Ptr R

/-- The array `cmatrices`: uninitialised elements are `none`. -/
abbrev Mem (R : Type) := List (Option (MStruct R))

/-- `count_extra_mats`, kronprod.pyx:28-38. -/
def countExtra : Mat R → Nat
  | .cmat m => countExtra m + 1
  | _ => 0

/-- The struct of a matrix object, kronprod.pyx:86-116. -/
def mkStruct : Mat R → Except PyErr (MStruct R)
  | .dense r _ d => do
    let p ← ofPy r
    .ok ⟨.numpy, p, .data d⟩
  | .swap n => do
    let p ← ofPy n
    .ok ⟨.swap, p, .obj⟩
  | .cmat m => do
    let p ← ofPy (Mat.cmat m).shape.1
    .ok ⟨.cmat, p, .obj⟩

/-- `cmatrices[i] = mstruct`. -/
def store (mem : Mem R) (i : Nat) (s : MStruct R) : Except PyErr (Mem R) :=
  if i < mem.length then .ok (mem.set i (some s)) else .error .ub

/-- `last_pointer_loc[0] = &cmatrices[a]`, where `last_pointer_loc` is `&cmatrices[l].pointer`. -/
def storePtr (mem : Mem R) (l a : Nat) : Except PyErr (Mem R) :=
  match mem[l]? with
  | some (some s) => .ok (mem.set l (some { s with ptr := .struct a }))
  | _ => .error .ub

/-- The loop `while True`, kronprod.pyx:84-132, from the second round on: `last` is the element that `last_pointer_loc` points
into, `extra` is `extra_i`. -/
def buildExtra : Mat R → Nat → Mem R → Nat → Except PyErr (Mem R × Nat)
  | .cmat m, last, mem, extra => do
    let s ← mkStruct (.cmat m)
    let mem ← store mem extra s
    let mem ← storePtr mem last extra
    buildExtra m extra mem (extra + 1)
  | m, last, mem, extra => do
    let s ← mkStruct m
    let mem ← store mem extra s
    let mem ← storePtr mem last extra
    .ok (mem, extra + 1)

/-- Body of the loop over the matrices, kronprod.pyx:78-132. -/
def buildMat (m : Mat R) (i : Nat) (mem : Mem R) (extra : Nat) : Except PyErr (Mem R × Nat) := do
  let s ← mkStruct m
  let mem ← store mem i s
  match m with
  | .cmat m' => buildExtra m' i mem extra
  | _ => .ok (mem, extra)

/-- The loop over the matrices, kronprod.pyx:77-132; `i` is the number of the first of `ms`. -/
def buildLoop : List (Mat R) → Nat → Mem R → Nat → Except PyErr (Mem R)
  | [], _, mem, _ => .ok mem
  | m :: ms, i, mem, extra => do
    let (mem, extra) ← buildMat m i mem extra
    buildLoop ms (i + 1) mem extra

/-- kronprod.pyx:53-132: allocation and filling of `cmatrices`. -/
def build (ms : List (Mat R)) : Except PyErr (Mem R) :=
  buildLoop ms 0 (List.replicate ((ms.map countExtra).sum + ms.length) none) ms.length

/-- `calc_mat_entry`, kronprod.pyx:203-235; `fuel` bounds the depth of the recursion. -/
def calcMatEntry [Zero R] [One R] (mem : Mem R) : Nat → MStruct R → CInt → CInt → Except PyErr R
  | 0, _, _, _ => .error .diverges
  | fuel + 1, s, i, j =>
    match s.mattype with
    | .cmat =>
      let half := s.param.sshiftRight 1
      if i.toInt < half.toInt ∧ j.toInt < half.toInt then .ok (if i = j then 1 else 0)
      else if i.toInt ≥ half.toInt ∧ j.toInt ≥ half.toInt then do
        let i' ← sub i half
        let j' ← sub j half
        match s.ptr with
        | .struct a =>
          match mem[a]? with
          | some (some s') => calcMatEntry mem fuel s' i' j'
          | _ => .error .ub
        | _ => .error .ub
      else .ok 0
    | .swap =>
      if ¬ (0 ≤ s.param.toInt ∧ s.param.toInt < 32) then .error .ub
      else
        let k := s.param.toNat
        let mask := ~~~ (BitVec.allOnes 32 <<< k)
        .ok (if i &&& mask = j.sshiftRight k ∧ j &&& mask = i.sshiftRight k then 1 else 0)
    | .numpy => do
      let a ← mul i s.param
      let a ← add a j
      match s.ptr with
      | .data d => read d a
      | _ => .error .ub

/-- kronprod.pyx:180-189: one of the numbers `submati`, `submatj` (of `row` or `colbits`) for one index group. -/
def subIndexC (g : List CInt) (n x : CInt) : Except PyErr CInt :=
  (cRange (trunc g.length)).foldlM (fun acc t => do
    let matindex ← read g t
    let n1 ← sub n 1
    let b ← sub n1 matindex
    let v ← getBitI x b
    let l1 ← sub (trunc g.length) 1
    let pos ← sub l1 t
    setBitI acc pos v) 0

/-- kronprod.pyx:175-194. -/
def prodC [Zero R] [One R] [Mul R] [DecidableEq R] (mem : Mem R) (groups : List (List CInt)) (n row col : CInt) :
    List CInt → R → Except PyErr R
  | [], p => .ok p
  | k :: rest, p => do
    let g ← read groups k
    let ms ← read mem k
    match ms with
    | none => .error .ub
    | some s => do
      let i ← subIndexC g n row
      let j ← subIndexC g n col
      let e ← calcMatEntry mem (mem.length + 1) s i j
      let p' := p * e
      if p' = 0 then .ok p' else prodC mem groups n row col rest p'

/-- kronprod.pyx:165-168: the next `colbits`. -/
def nextCol (flat : List CInt) (n i col : CInt) : Except PyErr CInt :=
  (cRange (trunc flat.length)).foldlM (fun cb j => do
    let indx ← read flat j
    let n1 ← sub n 1
    let b ← sub n1 indx
    let l1 ← sub (trunc flat.length) 1
    let c ← sub l1 j
    let v ← getBitI i c
    setBitI cb b v) col

/-- Body of the parallel loop, kronprod.pyx:158-196. -/
def rowC [Zero R] [One R] [Add R] [Mul R] [DecidableEq R] (mem : Mem R) (groups : List (List CInt)) (flat : List CInt)
    (vec : List R) (n inOff outOff two outputrow : CInt) : Except PyErr R := do
  let row ← add outputrow outOff
  let r ← (cRange two).foldlM (fun (st : CInt × R) i => do
    let col ← nextCol flat n i st.1
    let vecrow ← sub col inOff
    if vecrow.toInt < 0 ∨ vecrow.toInt ≥ (trunc vec.length).toInt then pure (col, st.2)
    else do
      let p ← prodC mem groups n row col (cRange (trunc groups.length)) 1
      let x ← read vec vecrow
      pure (col, st.2 + p * x)) (row, 0)
  .ok r.2

/-- `cdot_loop`, kronprod.pyx:41-200.  `sched` puts the iterations of the parallel loop in the order in which they take effect. -/
def cdotLoopC [Zero R] [One R] [Add R] [Mul R] [DecidableEq R] (sched : List Nat → List Nat) (mats : List (List Nat × Mat R))
    (vec : List R) (n : Nat) (out : List R) (inOff outOff : Nat) : Except PyErr (List R) := do
  -- `indexgroups` is an array of `int32` (qip/util.py:62)
  let groups ← mats.mapM fun gm => gm.1.mapM ofPy
  let n' ← ofPy n
  let inOff' ← ofPy inOff
  let outOff' ← ofPy outOff
  let mem ← build (mats.map (·.2))
  let flat := (sortedSet (mats.flatMap (·.1))).map (BitVec.ofNat 32)
  let two ← pow2 (trunc flat.length)
  (sched (List.range (trunc out.length).toInt.toNat)).foldlM (fun o r => do
    let s ← rowC mem groups flat vec n' inOff' outOff' two (BitVec.ofNat 32 r)
    if r < o.length then pure (o.set r s) else .error .ub) out

/-- `kronselect_dot`, qip/util.py:15-67, with the compiled kernel (see `kronselectDot`). -/
def kronselectDotC [Zero R] [One R] [Add R] [Mul R] [DecidableEq R] (sched : List Nat → List Nat) (mats : List (Key × Mat R))
    (vec : List R) (n : Nat) (out : List R) (inOff outOff : Nat) : Except PyErr (List R) :=
  if vec.length + inOff > 2 ^ n then .error .valueError
  else if out.length + outOff > 2 ^ n then .error .valueError
  else do
    let new ← normMats mats
    if new = [] ∨ ∃ gm ∈ new, ∃ gm' ∈ new, gm.1.length ≠ gm'.1.length then .error .valueError
    else cdotLoopC sched new vec n out inOff outOff

end QIP.C32
