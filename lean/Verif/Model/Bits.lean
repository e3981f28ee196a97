import Verif.Model.Err

/-!
# Bit arrays (`qip/util.py`)

Python bit arrays are lists of `0/1` integers that are only ever tested for truth; they are modelled as `List Bool`.
-/

namespace QIP

/-- Loop of `uint_to_bitarray`, qip/util.py:138-141: `bits.append(num % 2); num = num >> 1`, `n` times
(least significant bit first).  Python's `%` and `>>` round towards minus infinity, as `Int` `%` and `/` by 2 do. -/
def uintBitsLoop : Nat → Int → List Bool
  | 0, _ => []
  | n + 1, num => (num % 2 == 1) :: uintBitsLoop n (num / 2)

/-- `uint_to_bitarray`, qip/util.py:137-142 (`return bits[::-1]`). -/
def uintToBitarray (num : Int) (n : Nat) : List Bool :=
  (uintBitsLoop n num).reverse

/-- `bitarray_to_uint`, qip/util.py:145-149. -/
def bitarrayToUint (bits : List Bool) : Nat :=
  (List.range bits.length).foldl
    (fun s i => s + if bits.getD (bits.length - i - 1) false then 2 ^ i else 0) 0

/-- `qubit_index_notation`, qip/util.py:157-167, main loop over the register sizes. -/
def notationLoop (bits : List Bool) : List Nat → Nat → List Nat
  | [], _ => []
  | k :: ks, start => bitarrayToUint ((bits.drop start).take k) :: notationLoop bits ks (start + k)

/-- `qubit_index_notation(i, *qns, n)`, qip/util.py:157-167.  `n = none` is the default `sum(qns)`. -/
def qubitIndexNotation (i : Int) (qns : List Nat) (n : Option Nat := none) : List Nat :=
  notationLoop (uintToBitarray i (n.getD qns.sum)) qns 0

/-- `gen_qubit_prints`, qip/util.py:170-184.  A printed line is modelled by the pair (register values, amplitude)
from which the string is formatted; `qs` are the register sizes (`q` or `q.n`). -/
def genQubitPrints {R : Type} [Zero R] [DecidableEq R] (state : List R) (qs : List Nat) : List (List Nat × R) :=
  (List.range state.length).filterMap fun i =>
    if state.getD i 0 = 0 then none
    else some (qubitIndexNotation i qs (some qs.sum), state.getD i 0)

end QIP
