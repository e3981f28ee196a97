import Verif.Model.CMeasure
import Verif.Model.FuncApply

/-!
# `func_apply` with C ints (`qip/ext/func_apply.pyx`)

The kernel of `Model/FuncApply` with `int` variables as 32-bit words and every shift, difference and access to memory checked, as
in `Model/CKernel`.  In particular reading `other_indices` behind its end is undefined behaviour here; `Model/FuncApply`
describes what it does on common hardware.
-/

namespace QIP.C32

open QIP

variable {R : Type}

/-- Conversion of the Python integer returned by `func` to a C `int`, func_apply.pyx:69 and 78. -/
def ofPyInt (y : Int) : Except PyErr CInt :=
  if -2 ^ 31 ≤ y ∧ y < 2 ^ 31 then .ok (BitVec.ofInt 32 y) else .error .overflowError

/-- The loops func_apply.pyx:81-85, 93-97 and 99-103. -/
def placeC (n : CInt) (idx : List CInt) (val : CInt) : Except PyErr CInt :=
  (List.range idx.length).foldlM (fun acc j => do
    let q ← read idx (trunc j)
    let n1 ← sub n 1
    let b ← sub n1 q
    let l1 ← sub (trunc idx.length) 1
    let c ← sub l1 (trunc j)
    let v ← getBitI val c
    setBitI acc b v) 0

/-- The loop func_apply.pyx:108-111, with the bound `reg2_indices.shape[0]` as written. -/
def rOffC (n : CInt) (n2 : Nat) (nrem : CInt) (other : List CInt) (r : CInt) : Except PyErr CInt :=
  (List.range n2).foldlM (fun acc j => do
    let q ← read other (trunc j)
    let n1 ← sub n 1
    let b ← sub n1 q
    let l1 ← sub nrem 1
    let c ← sub l1 (trunc j)
    let v ← getBitI r c
    setBitI acc b v) 0

/-- One assignment `output[...] = vec[...]`, func_apply.pyx:79-112, for loop counters `x`, `q`, `r` and `y = func(x)`. -/
def assignC (n : CInt) (reg1 reg2 other : List CInt) (nrem : CInt) (vec : List R) (y x q r : CInt) (out : List R) :
    Except PyErr (List R) := do
  let zero ← placeC n reg1 x
  let fOff ← placeC n reg2 (y ^^^ q)
  let qOff ← placeC n reg2 q
  let rOff ← rOffC n reg2.length nrem other r
  let v ← read vec (zero ||| qOff ||| rOff)
  write out (zero ||| fOff ||| rOff) v

/-- `func_apply`, func_apply.pyx:11-112; `order` as in `funcApply`. -/
def funcApplyC [Zero R] (reg1 reg2 : List Nat) (f : Nat → Except PyErr Int) (vec : List R) (n : Nat) (out : List R)
    (inOff outOff : Nat) (pregen : Bool) (order : List (Nat × Nat × Nat)) : Except PyErr (List R) := do
  let g1 ← reg1.mapM ofPy
  let g2 ← reg2.mapM ofPy
  let n' ← ofPy n
  let _ ← ofPy inOff
  let _ ← ofPy outOff
  let two ← pow2L n'
  if vec.length ≠ out.length ∨ two ≠ vec.length then .error .valueError
  else if vec.length + inOff > two then .error .valueError
  else if out.length + outOff > two then .error .valueError
  else do
    -- 43-45
    let zeroed ← (List.range two).foldlM (fun o i => write o (trunc i) 0) out
    let nrem := BitVec.ofInt 32 ((n : Int) - (reg1.length + reg2.length : Nat))
    let other := (faOther n reg1 reg2).map (BitVec.ofNat 32)
    let n1 ← pow2L (trunc reg1.length)
    let tab ← if pregen then (List.range n1).mapM fun x => do ofPyInt (← f x) else .ok []
    order.foldlM (fun o t => do
      let y ← if pregen then read tab (trunc t.1) else do ofPyInt (← f t.1)
      assignC n' g1 g2 other nrem vec y (trunc t.1) (trunc t.2.1) (trunc t.2.2) o) zeroed

end QIP.C32
