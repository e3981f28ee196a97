import Verif.Model.Bits
import Verif.Model.CInt

/-!
# `func_apply` (`qip/ext/func_apply.pyx`)
-/

namespace QIP

variable {R : Type}

/-- Conversion of the Python integer returned by `func` to a C `int` (func_apply.pyx:69 and 78); the value is kept as
the unsigned 32-bit pattern. -/
def toCInt (y : Int) : Except PyErr Nat :=
  if -2 ^ 31 ≤ y ∧ y < 2 ^ 31 then .ok (y % 2 ^ 32).toNat else .error .overflowError

/-- `other_indices`, func_apply.pyx:58-60. -/
def faOther (n : Nat) (reg1 reg2 : List Nat) : List Nat :=
  (List.range n).filter fun i => i ∉ reg1 ∧ i ∉ reg2

/-- The loops func_apply.pyx:81-85 (register 1), 93-97 and 99-103 (register 2): place the bits of `val` at the qubits
`idx`. -/
def faPlace (n : Nat) (idx : List Nat) (val : Nat) : Nat :=
  (List.range idx.length).foldl
    (fun acc j => setBit acc ((n - 1) - idx.getD j 0) (getBit val ((idx.length - 1) - j))) 0

/-- The loop func_apply.pyx:108-111, with the bound `reg2_indices.shape[0]` as written.  For `j` beyond the end of
`other_indices` the code reads outside the buffer and passes a negative bit position to `get_bit`: on the hardware the
latter masks the shift count and reads a bit beyond the used ones (0), and the former makes `set_bit` clear the bit at
an arbitrary position, which is the parameter `garb j`. -/
def faROffset (n n2 nrem : Nat) (other : List Nat) (garb : Nat → Nat) (r : Nat) : Nat :=
  (List.range n2).foldl
    (fun acc j => if j < other.length then setBit acc ((n - 1) - other.getD j 0) (getBit r ((nrem - 1) - j))
      else setBit acc (garb j) false) 0

/-- One assignment `output[...] = vec[...]`, func_apply.pyx:112, for loop counters `x`, `q`, `r` and `y = func(x)`. -/
def faAssign [Zero R] (n : Nat) (reg1 reg2 : List Nat) (garb : Nat → Nat) (vec : List R) (y x q r : Nat)
    (out : List R) : List R :=
  let nrem := n - (reg1.length + reg2.length)
  let zero := faPlace n reg1 x
  let fOff := faPlace n reg2 (y ^^^ q)
  let qOff := faPlace n reg2 q
  let rOff := faROffset n reg2.length nrem (faOther n reg1 reg2) garb r
  out.set (zero ||| fOff ||| rOff) (vec.getD (zero ||| qOff ||| rOff) 0)

/-- `func_apply`, qip/ext/func_apply.pyx:11-112.  `f` is the user's function (pure; may raise).  `order` is the order
in which the assignments of the loop nest take effect, given by their counters `(x, q, r)`; every interleaving of the
`prange` threads is such an order.  With `pregen` the function is tabulated first (66-69), otherwise it is called in
the loop (76-78).  `garb` is explained at `faROffset`.  Result: new content of `output`.
Register indices `≥ n` make the code shift by negative amounts; registers are assumed disjoint and duplicate-free in
the theorems (otherwise `n_remaining` is not the number of other indices). -/
def funcApply [Zero R] (reg1 reg2 : List Nat) (f : Nat → Except PyErr Int) (vec : List R) (n : Nat) (out : List R)
    (inOff outOff : Nat) (pregen : Bool) (order : List (Nat × Nat × Nat)) (garb : Nat → Nat) :
    Except PyErr (List R) :=
  if vec.length ≠ out.length ∨ 2 ^ n ≠ vec.length then .error .valueError
  else if vec.length + inOff > 2 ^ n then .error .valueError
  else if out.length + outOff > 2 ^ n then .error .valueError
  else if ∃ q ∈ reg1 ++ reg2, n ≤ q then .error .ub
  else do
    let zeroed : List R := List.replicate (2 ^ n) 0
    let tab ← if pregen then (List.range (2 ^ reg1.length)).mapM fun x => do toCInt (← f x) else .ok []
    order.foldlM (fun o t => do
      let y ← if pregen then .ok (tab.getD t.1 0) else do toCInt (← f t.1)
      pure (faAssign n reg1 reg2 garb vec y t.1 t.2.1 t.2.2 o)) zeroed

/-- All counters of the loop nest in `func_apply` (func_apply.pyx:72, 88, 107). -/
def faCounters (n : Nat) (reg1 reg2 : List Nat) : List (Nat × Nat × Nat) :=
  (List.range (2 ^ reg1.length)).flatMap fun x => (List.range (2 ^ reg2.length)).flatMap fun q =>
    (List.range (2 ^ (faOther n reg1 reg2).length)).map fun r => (x, q, r)

/-- `CythonBackend.func_apply`, qip/backend.py:118-121: the offsets are dropped and `pregen` keeps its default; on
success state and arena are exchanged (the new state is returned), on an exception the state is unchanged. -/
def backendFuncApply [Zero R] (reg1 reg2 : List Nat) (f : Nat → Except PyErr Int) (n : Nat) (state arena : List R)
    (order : List (Nat × Nat × Nat)) (garb : Nat → Nat) : Except PyErr (List R) :=
  funcApply reg1 reg2 f state n arena 0 0 true order garb

end QIP
