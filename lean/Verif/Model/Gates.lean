import Mathlib.Analysis.SpecialFunctions.Complex.Circle
import Verif.Model.Kron

/-!
# Matrix gates (`qip/operators.py`)
-/

namespace QIP

/-- The built-in matrix operations with their parameters: `NotOp`, `XOp` (operators.py:37-60), `YOp` (63-75), `ZOp`
(78-90), `HOp` (93-105), `ROp` (108-121), `RmOp` (124-133), `SwapOp` (136-154, the parameter is `inputs[0].n`) and
`COp` around another matrix op (195-230).  User-defined subclasses of `MatrixOp` are not represented. -/
inductive Gate where
  | not
  | x
  | y
  | z
  | h
  | r (phi : ℝ)
  | rm (m : ℤ) (negate : Bool)
  | swap (n : Nat)
  | c (op : Gate)

/-- `{i: mat for i in flatten(index_groups)}`: one matrix object per qubit, keyed by a bare int. -/
def perQubit (mat : Mat ℂ) (groups : List (List Nat)) : List (Key × Mat ℂ) :=
  groups.flatten.foldl (fun d i => dictInsert d (.int i) mat) []

/-- `exponented = numpy.exp(1.0j * phi)`, operators.py:111. -/
noncomputable def expI (phi : ℝ) : ℂ := Complex.exp (Complex.I * phi)

/-- The angle given to `ROp.__init__` by `RmOp.__init__`, operators.py:126. -/
noncomputable def rmPhi (m : ℤ) (negate : Bool) : ℝ := (if negate then -2 else 2) * Real.pi / (2 : ℝ) ^ m

/-- `makemats` of every class, operators.py:41-43, 67-69, 82-84, 97-99, 113-115, 144-148, 221-227.  Accesses to a
missing index group raise IndexError. -/
noncomputable def Gate.makemats : Gate → List (List Nat) → Except PyErr (List (Key × Mat ℂ))
  | .not, gs => .ok (perQubit (.dense 2 2 [0, 1, 1, 0]) gs)
  | .x, gs => .ok (perQubit (.dense 2 2 [0, 1, 1, 0]) gs)
  | .y, gs => .ok (perQubit (.dense 2 2 [0, -Complex.I, Complex.I, 0]) gs)
  | .z, gs => .ok (perQubit (.dense 2 2 [1, 0, 0, -1]) gs)
  | .h, gs => .ok (perQubit
      (.dense 2 2 [1 / (√2 : ℝ) * 1, 1 / (√2 : ℝ) * 1, 1 / (√2 : ℝ) * 1, 1 / (√2 : ℝ) * -1]) gs)
  | .r phi, gs => .ok (perQubit (.dense 2 2 [1, 0, 0, expI phi]) gs)
  | .rm m negate, gs => .ok (perQubit (.dense 2 2 [1, 0, 0, expI (rmPhi m negate)]) gs)
  | .swap k, gs =>
    match gs with
    | a :: b :: _ => .ok [(.tup (a ++ b), .swap k)]
    | _ => .error .indexError
  | .c op, gs => do
    let opm ← op.makemats gs.tail
    opm.foldlM (fun d km =>
      match gs with
      | [] => .error .indexError
      | g0 :: _ => .ok (dictInsert d (.tup (g0 ++ km.1.qubits)) (.cmat km.2))) []

/-- `.conj()`: numpy, `CMat.conj` (operators.py:256-257); `SwapMat` has no such attribute. -/
noncomputable def Mat.conj : Mat ℂ → Except PyErr (Mat ℂ)
  | .dense r c d => .ok (.dense r c (d.map (starRingEnd ℂ)))
  | .cmat m => do let m' ← m.conj; pure (.cmat m')
  | .swap _ => .error .attributeError

/-- `.T`: numpy, `CMat.T` (operators.py:259-261); `SwapMat` has no such attribute.  Numpy returns a strided view; only
its entries matter, because the compiled kernel copies to a contiguous array (kronprod.pyx:99). -/
def Mat.T {R : Type} [Zero R] : Mat R → Except PyErr (Mat R)
  | .dense r c d => .ok (.dense c r ((List.range (c * r)).map fun idx => d.getD ((idx % r) * c + idx / r) 0))
  | .cmat m => do let m' ← m.T; pure (.cmat m')
  | .swap _ => .error .attributeError

/-- The matrices applied by `MatrixOp.feed_indices` at the first run, operators.py:15-26 (the caching in `self.ms` is
modelled with the graph). -/
noncomputable def Gate.feedMats (g : Gate) (dagger : Bool) (gs : List (List Nat)) :
    Except PyErr (List (Key × Mat ℂ)) := do
  let ms ← g.makemats gs
  if dagger then ms.mapM fun km => do
    let m ← km.2.conj
    let m ← m.T
    pure (km.1, m)
  else pure ms

/-- One matrix op applied to a local state: `feed_indices` followed by `CythonBackend.kronselect_dot`
(backend.py:109-114), which writes to `arena` and makes it the state.  `impl` chooses the kernel. -/
noncomputable def Gate.apply (g : Gate) (dagger : Bool) (gs : List (List Nat)) (n : Nat) (state arena : List ℂ)
    (impl : DotImpl) : Except PyErr (List ℂ) := do
  let ms ← g.feedMats dagger gs
  kronselectDot ms state n arena 0 0 impl

end QIP
