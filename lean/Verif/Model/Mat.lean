import Mathlib.Algebra.Ring.Defs
import Verif.Model.Err

/-!
# Matrix objects (`qip/operators.py`, `qip/ext/kronprod.pyx`)
-/

namespace QIP

/-- A matrix object accepted by the kernels: a 2-d numpy array (row-major data), a `CMat`
(qip/operators.py:233-268) around another matrix object, or a `SwapMat` (qip/operators.py:157-179).
A Python list of lists is turned into a numpy array on entry (qip/util.py:45-46, qip/operators.py:237-238) and is
therefore represented by `dense`.  Objects of other classes (rejected by `cdot_loop`, kronprod.pyx:114-116) are not
represented. -/
inductive Mat (R : Type) where
  | dense (rows cols : Nat) (data : List R)
  | cmat (m : Mat R)
  | swap (n : Nat)
  deriving Repr

namespace Mat

variable {R : Type}

/-- `m.shape`: numpy shape; `CMat.__init__` doubles both sides (operators.py:241); `SwapMat` is
`(2**(2n), 2**(2n))` (operators.py:167). -/
def shape : Mat R → Nat × Nat
  | dense r c _ => (r, c)
  | cmat m => (m.shape.1 * 2, m.shape.2 * 2)
  | swap n => (2 ^ (2 * n), 2 ^ (2 * n))

/-- Invariant of numpy arrays: as many entries as the shape says.  Not a property of the code but of numpy. -/
def WF : Mat R → Prop
  | dense r c d => d.length = r * c
  | cmat m => m.WF
  | swap _ => True

/-- `mat[i, j]` as used by the Python kernel (qip/util.py:90): numpy indexing with bounds check,
`CMat.__getitem__` (operators.py:243-252), `SwapMat.__getitem__` (operators.py:169-173; `x & ~(-1 << n)` is
`x % 2**n`).  Indices are non-negative here. -/
def get [Zero R] [One R] : Mat R → Nat → Nat → Except PyErr R
  | dense r c d, i, j => if i < r ∧ j < c then .ok (d.getD (i * c + j) 0) else .error .indexError
  | cmat m, i, j =>
    -- `self.shape[0]/2` is `m.shape[0]`
    if i < m.shape.1 ∧ j < m.shape.2 then .ok (if i = j then 1 else 0)
    else if i ≥ m.shape.1 ∧ j ≥ m.shape.2 then m.get (i - m.shape.1) (j - m.shape.2)
    else .ok 0
  | swap n, i, j => .ok (if i % 2 ^ n = j >>> n ∧ j % 2 ^ n = i >>> n then 1 else 0)

/-- `calc_mat_entry`, qip/ext/kronprod.pyx:203-235, together with the struct built by `cdot_loop`
(kronprod.pyx:84-132): `param` is `shape[0]` for numpy arrays and CMats, `n` for swaps.  A read past the end of the
numpy buffer is `PyErr.ub`. -/
def calcEntry [Zero R] [One R] : Mat R → Nat → Nat → Except PyErr R
  | cmat m, i, j =>
    let half := (m.cmat.shape.1) >>> 1
    if i < half ∧ j < half then .ok (if i = j then 1 else 0)
    else if i ≥ half ∧ j ≥ half then m.calcEntry (i - half) (j - half)
    else .ok 0
  | swap n, i, j => .ok (if i % 2 ^ n = j >>> n ∧ j % 2 ^ n = i >>> n then 1 else 0)
  | dense r _ d, i, j =>
    match d[i * r + j]? with
    | some x => .ok x
    | none => .error .ub

end Mat
end QIP
