import Verif.Model.Gates

/-!
# Operations on the wire (`qip/distributed/proto/conversion.py`, `qip/distributed/backend.py`)

Protobuf messages are records; serialisation followed by parsing is the identity on them (protobuf is trusted).  An
`int32` field rejects values outside `[-2**31, 2**31)` with ValueError.  `double` fields hold exact reals.
-/

namespace QIP

/-- `ComplexVector` (messages.proto). -/
structure PbVec where
  real : List ℝ
  imag : List ℝ

/-- The `oneof op` of `MatrixOp` with the `indices` of every level (messages.proto).  The field `op` is always set by
`matop_to_pbmatop`. -/
inductive PbOp where
  | matrix (indices : List Nat) (shape : List Nat) (data : PbVec)
  | controlled (indices : List Nat) (op : PbOp)
  | swap (indices : List Nat)

/-- `indices_to_pbindices`, conversion.py:7-12: iterating over a bare int is a TypeError. -/
def indicesToPb : Key → Except PyErr (List Nat)
  | .int _ => .error .typeError
  | .tup is => if ∀ i ∈ is, i < 2 ^ 31 then .ok is else .error .valueError

/-- `vec_to_pbvec`, conversion.py:19-25. -/
noncomputable def vecToPb (v : List ℂ) : PbVec := ⟨v.map Complex.re, v.map Complex.im⟩

/-- `pbvec_to_vec`, conversion.py:28-29 (vectors of different lengths raise ValueError; numpy's broadcasting of
one-element vectors is not represented). -/
noncomputable def pbToVec (p : PbVec) : Except PyErr (List ℂ) :=
  if p.real.length = p.imag.length then
    .ok (List.zipWith (fun (x y : ℝ) => (x : ℂ) + Complex.I * (y : ℂ)) p.real p.imag)
  else .error .valueError

/-- `matop_to_pbmatop`, conversion.py:47-59, with `mat_to_pbmat` (32-40) for numpy arrays. -/
noncomputable def matopToPb (k : Key) : Mat ℂ → Except PyErr PbOp
  | .swap _ => do
    let is ← indicesToPb k
    pure (.swap is)
  | .cmat m => do
    let is ← indicesToPb k
    let inner ← matopToPb (.tup is.tail) m
    pure (.controlled is inner)
  | .dense r c d => do
    let is ← indicesToPb k
    if r < 2 ^ 31 ∧ c < 2 ^ 31 then pure (.matrix is [r, c] (vecToPb d)) else .error .valueError

/-- `pbmatop_to_matop`, conversion.py:62-70, with `pbmat_to_mat` (43-44): `reshape` fails if the sizes disagree (shapes
other than two-dimensional are not represented). -/
noncomputable def pbToMatop : PbOp → Except PyErr (List Nat × Mat ℂ)
  | .swap is => .ok (is, .swap (is.length / 2))
  | .matrix is shape p => do
    let v ← pbToVec p
    match shape with
    | [r, c] => if v.length = r * c then .ok (is, .dense r c v) else .error .valueError
    | _ => .error .exception
  | .controlled is op => do
    let im ← pbToMatop op
    pure (is, .cmat im.2)

/-- The loop of `DistributedBackend.kronselect_dot`, backend.py:55-58: the message sent for a mapping. -/
noncomputable def matsToPb (mats : List (Key × Mat ℂ)) : Except PyErr (List PbOp) :=
  mats.mapM fun km => matopToPb km.1 km.2

/-- The mapping rebuilt by the worker, worker.py:71-74. -/
noncomputable def pbToMats (ops : List PbOp) : Except PyErr (List (Key × Mat ℂ)) :=
  ops.foldlM (fun d op => do
    let im ← pbToMatop op
    pure (dictInsert d (.tup im.1) im.2)) []

end QIP
