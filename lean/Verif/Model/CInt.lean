import Mathlib.Data.Nat.Bitwise
import Mathlib.Data.BitVec

/-!
# Bit primitives of the compiled kernels (`qip/ext/util.pyx`)

Two versions: on natural numbers (used by the kernel models, namespace `QIP`) and on 32-bit C ints (`QIP.C32`).
`Props/C03` shows that they agree below 31 bits.
-/

namespace QIP

/-- `set_bit`, qip/ext/util.pyx:25-26, on unbounded naturals; `value` is the truth value `value != 0`.
`-(value != 0)` is the all-ones word for a true value, so `(-(1) ^ num) & bit` is the bit if it is clear in `num`;
written here without complement: `num ^ (num ^ b) & bit` where `b` is all ones is `num | bit`. -/
def setBit (num bit : Nat) (value : Bool) : Nat :=
  if value then num ||| (1 <<< bit) else num ^^^ (num &&& (1 <<< bit))

/-- `get_bit`, qip/ext/util.pyx:29-30; the result 0/1 is only used as a truth value or a bit, so it is a `Bool`. -/
def getBit (num bit : Nat) : Bool := (num >>> bit) &&& 1 != 0

/-- Loop state of `entwine_bit`, qip/ext/util.pyx:2-23. -/
structure EntwineSt where
  nI : Nat
  nN : Nat
  maskI : Nat
  maskN : Nat
  select : Nat
  m : Nat

/-- One iteration of the loop of `entwine_bit`, qip/ext/util.pyx:10-22. -/
def entwineStep (n vI vN mask : Nat) (s : EntwineSt) (j : Nat) : EntwineSt :=
  if (mask &&& s.select) >>> ((n - 1) - j) != 0 then
    { s with
      nI := s.nI - 1
      m := (s.m <<< 1) + ((vI &&& s.maskI) >>> (s.nI - 1))
      maskI := s.maskI >>> 1
      select := s.select >>> 1 }
  else
    { s with
      nN := s.nN - 1
      m := (s.m <<< 1) + ((vN &&& s.maskN) >>> (s.nN - 1))
      maskN := s.maskN >>> 1
      select := s.select >>> 1 }

/-- `entwine_bit`, qip/ext/util.pyx:2-23, on unbounded naturals.  The counters `n_indices`, `n_non_indices` are C ints
that could go negative if `mask` does not have exactly `n_indices` ones among its lowest `n` bits (then the C code
shifts by a negative amount); the natural-number version truncates at 0, so it is only meaningful when the mask has
the right number of ones.  All theorems about callers assume distinct in-range indices, which guarantees that. -/
def entwineBit (nI nN vI vN mask : Nat) : Nat :=
  let n := nI + nN
  ((List.range n).foldl (entwineStep n vI vN mask)
    { nI := nI, nN := nN, maskI := 1 <<< (nI - 1), maskN := 1 <<< (nN - 1), select := 1 <<< (n - 1), m := 0 }).m

namespace C32

/-- A C `int`. -/
abbrev CInt := BitVec 32

/-- `set_bit`, qip/ext/util.pyx:25-26: `num ^ (-(value!=0) ^ num) & (1 << bit_index)` (`&` binds tighter than `^`).
The shift amount is a natural number: negative or ≥ 32 shift amounts are undefined in C. -/
def setBit (num : CInt) (bit : Nat) (value : CInt) : CInt :=
  num ^^^ ((-(if value != 0 then 1#32 else 0#32) ^^^ num) &&& (1#32 <<< bit))

/-- `get_bit`, qip/ext/util.pyx:29-30 (`>>` on a signed int is an arithmetic shift). -/
def getBit (num : CInt) (bit : Nat) : CInt := (num.sshiftRight bit) &&& 1#32

/-- Loop state of `entwine_bit` on C ints (counters are kept as naturals: they are loop-bounded by `n ≤ 31`). -/
structure EntwineSt where
  nI : Nat
  nN : Nat
  maskI : CInt
  maskN : CInt
  select : CInt
  m : CInt

/-- One iteration of `entwine_bit`, qip/ext/util.pyx:10-22, on C ints. -/
def entwineStep (n : Nat) (vI vN mask : CInt) (s : EntwineSt) (j : Nat) : EntwineSt :=
  if (mask &&& s.select).sshiftRight ((n - 1) - j) != 0 then
    { s with
      nI := s.nI - 1
      m := (s.m <<< 1) + (vI &&& s.maskI).sshiftRight (s.nI - 1)
      maskI := s.maskI.sshiftRight 1
      select := s.select.sshiftRight 1 }
  else
    { s with
      nN := s.nN - 1
      m := (s.m <<< 1) + (vN &&& s.maskN).sshiftRight (s.nN - 1)
      maskN := s.maskN.sshiftRight 1
      select := s.select.sshiftRight 1 }

/-- `entwine_bit`, qip/ext/util.pyx:2-23, on C ints. -/
def entwineBit (nI nN : Nat) (vI vN mask : CInt) : CInt :=
  let n := nI + nN
  ((List.range n).foldl (entwineStep n vI vN mask)
    { nI := nI, nN := nN, maskI := 1#32 <<< (nI - 1), maskN := 1#32 <<< (nN - 1), select := 1#32 <<< (n - 1), m := 0 }).m

end C32

end QIP
