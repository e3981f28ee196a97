import Mathlib.Data.List.Dedup
import Verif.Model.Bits
import Verif.Model.CInt
import Verif.Model.Mat

/-!
# Tensor product kernels (`qip/util.py`, `qip/ext/kronprod.pyx`)
-/

namespace QIP

variable {R : Type}

/-- A key of the `mats` mapping: a bare int or a tuple of ints (qip/util.py:10). -/
inductive Key where
  | int (i : Nat)
  | tup (is : List Nat)
  deriving DecidableEq, Repr

/-- The tuple a key is normalised to (qip/util.py:43-54). -/
def Key.qubits : Key → List Nat
  | .int i => [i]
  | .tup is => is

/-- Insertion into a Python dict kept as an association list in insertion order: an existing key keeps its place and
gets the new value. -/
def dictInsert {α β : Type} [DecidableEq α] (d : List (α × β)) (k : α) (v : β) : List (α × β) :=
  if d.any (fun p => p.1 = k) then d.map (fun p => if p.1 = k then (k, v) else p) else d ++ [(k, v)]

/-- `list(sorted(set(index for indices in allindices for index in indices)))`, qip/util.py:73, kronprod.pyx:140. -/
def sortedSet (l : List Nat) : List Nat := l.dedup.mergeSort (fun a b => decide (a ≤ b))

/-- The dict `{matindices[j]: item for j, item in enumerate(zip(matrow, matcol))}`, qip/util.py:105. -/
def mijsDict (matindices : List Nat) (matrow matcol : List Bool) : List (Nat × (Bool × Bool)) :=
  matindices.zip (matrow.zip matcol)

/-- `rowbits[indx]` of a list, qip/util.py:100. -/
def bitAt (bits : List Bool) (indx : Nat) : Except PyErr Bool :=
  match bits[indx]? with
  | some b => .ok b
  | none => .error .indexError

/-- `gen_valid_col_and_matcol`, qip/util.py:96-105: list of yielded `(col, mijs)` (the row component of the yielded
pair is the argument).  `colbits` is a mutable list that persists between iterations; each iteration overwrites
exactly the entries `matindices` (103-104), which is the inner fold (an index outside the list has raised in line 100). -/
def genValidCols (row : Nat) (matindices : List Nat) (n : Nat) : Except PyErr (List (Nat × List (Nat × (Bool × Bool)))) := do
  let rowbits := uintToBitarray row n
  let matrow ← matindices.mapM (bitAt rowbits)
  .ok ((List.range (2 ^ matindices.length)).foldl
    (fun (st : List Bool × List (Nat × List (Nat × (Bool × Bool)))) (i : Nat) =>
      let matcol := uintToBitarray (i : Int) matindices.length
      let colbits := (matindices.zip matcol).foldl (fun cb p => cb.set p.1 p.2) st.1
      (colbits, st.2 ++ [(bitarrayToUint colbits, mijsDict matindices matrow matcol)]))
    (rowbits, [])).2

/-- `mijs[index]`, a dict lookup. -/
def lookupMij (mijs : List (Nat × (Bool × Bool))) (index : Nat) : Except PyErr (Bool × Bool) :=
  match mijs.lookup index with
  | some p => .ok p
  | none => .error .keyError

/-- qip/util.py:84-90: product of the entries of all matrices. -/
def entryProduct [Zero R] [One R] [Mul R] (mats : List (List Nat × Mat R)) (mijs : List (Nat × (Bool × Bool))) :
    Except PyErr R :=
  mats.foldlM (fun p gm => do
    let ri ← gm.1.mapM fun index => do let b ← lookupMij mijs index; pure b.1
    let rj ← gm.1.mapM fun index => do let b ← lookupMij mijs index; pure b.2
    let e ← gm.2.get (bitarrayToUint ri) (bitarrayToUint rj)
    pure (p * e)) 1

/-- Body of the output loop of `dot_loop`, qip/util.py:76-93: the value `s` for one output row. -/
def dotRow [Zero R] [One R] [Add R] [Mul R] (mats : List (List Nat × Mat R)) (vec : List R) (n inOff row : Nat) :
    Except PyErr R := do
  let flatindices := sortedSet (mats.flatMap (·.1))
  let cols ← genValidCols row flatindices n
  cols.foldlM (fun s cm => do
    -- `input_col = c - input_offset; if input_col < 0 or input_col >= len(vec): continue`
    if cm.1 < inOff ∨ cm.1 - inOff ≥ vec.length then pure s
    else do
      let p ← entryProduct mats cm.2
      pure (s + p * vec.getD (cm.1 - inOff) 0)) 0

/-- `dot_loop`, qip/util.py:70-93.  Returns the new contents of `output` (all `outLen` entries are overwritten). -/
def dotLoop [Zero R] [One R] [Add R] [Mul R] (mats : List (List Nat × Mat R)) (vec : List R) (n outLen inOff outOff : Nat) :
    Except PyErr (List R) :=
  (List.range outLen).mapM fun outputrow => dotRow mats vec n inOff (outputrow + outOff)

/-- Columns `colbits` of `cdot_loop`, kronprod.pyx:164-168: persistent `colbits`, all flat indices rewritten in each
iteration. -/
def cdotCols (flatindices : List Nat) (n row : Nat) : List Nat :=
  let k := flatindices.length
  ((List.range (2 ^ k)).foldl
    (fun (st : Nat × List Nat) i =>
      let cb := (List.range k).foldl
        (fun cb j => setBit cb ((n - 1) - flatindices.getD j 0) (getBit i ((k - 1) - j))) st.1
      (cb, st.2 ++ [cb]))
    (row, [])).2

/-- `submati`/`submatj` loop, kronprod.pyx:180-189. -/
def cSubIndex (n : Nat) (g : List Nat) (row : Nat) : Nat :=
  (List.range g.length).foldl
    (fun acc t => setBit acc ((g.length - 1) - t) (getBit row ((n - 1) - g.getD t 0))) 0

/-- kronprod.pyx:175-194: product over the matrices with the early `break` when the product becomes zero. -/
def cEntryProduct [Zero R] [One R] [Mul R] [DecidableEq R] (n row col : Nat) :
    List (List Nat × Mat R) → R → Except PyErr R
  | [], p => .ok p
  | gm :: rest, p => do
    let e ← gm.2.calcEntry (cSubIndex n gm.1 row) (cSubIndex n gm.1 col)
    let p' := p * e
    if p' = 0 then pure p' else cEntryProduct n row col rest p'

/-- Body of the parallel loop, kronprod.pyx:158-196: value `s` of one output row. -/
def cdotRow [Zero R] [One R] [Add R] [Mul R] [DecidableEq R] (mats : List (List Nat × Mat R)) (vec : List R) (n inOff row : Nat) :
    Except PyErr R :=
  (cdotCols (sortedSet (mats.flatMap (·.1))) n row).foldlM (fun s col => do
    if col < inOff ∨ col - inOff ≥ vec.length then pure s
    else do
      let p ← cEntryProduct n row col mats 1
      pure (s + p * vec.getD (col - inOff) 0)) 0

/-- `cdot_loop`, kronprod.pyx:41-200.  `sched` is the order in which the iterations of the parallel loop
(`prange`, line 157) take effect; `out` is the old content of `output`, entry `outputrow` of which is assigned by
iteration `outputrow` (all other variables assigned in the loop are thread-private).  An index `≥ n` makes the code
shift by a negative amount (undefined behaviour). The conversion of the matrix objects into C structs (57-132) is
represented by `Mat.calcEntry` acting on `Mat` directly; the structs are one-to-one with the objects. -/
def cdotLoop [Zero R] [One R] [Add R] [Mul R] [DecidableEq R] (sched : List Nat) (mats : List (List Nat × Mat R)) (vec : List R)
    (n : Nat) (out : List R) (inOff outOff : Nat) : Except PyErr (List R) :=
  if out ≠ [] ∧ ∃ q ∈ mats.flatMap (·.1), n ≤ q then .error .ub
  else sched.foldlM (fun o outputrow => do
    let s ← cdotRow mats vec n inOff (outputrow + outOff)
    pure (o.set outputrow s)) out

/-- The loop qip/util.py:35-58: keys normalised to tuples, shapes checked.  (The "type of indices" exception of line
42 concerns keys that are neither int nor tuple, which `Key` excludes.) -/
def normMats (mats : List (Key × Mat R)) : Except PyErr (List (List Nat × Mat R)) :=
  mats.foldlM (fun new km =>
    let g := match km.1 with
      | .int i => [i]
      | .tup is => is
    let new' := dictInsert new g km.2
    if 2 ^ g.length ≠ km.2.shape.1 ∨ 2 ^ g.length ≠ km.2.shape.2 then .error .exception
    else .ok new') []

/-- Which kernel `kronselect_dot` dispatches to (qip/util.py:60-67): `dot_loop`, or `cdot_loop` with a schedule. -/
inductive DotImpl where
  | python
  | cython (sched : List Nat)

/-- `kronselect_dot`, qip/util.py:15-67.  `out` is the old content of `outputarray`; the result is its new content.
With `cdot_loop` the index groups are packed into a two-dimensional int array (line 62), which numpy can only do if
there is at least one group and all groups have the same length; otherwise the call of `cdot_loop` fails with
ValueError ("Buffer has wrong number of dimensions" / object dtype). -/
def kronselectDot [Zero R] [One R] [Add R] [Mul R] [DecidableEq R] (mats : List (Key × Mat R)) (vec : List R) (n : Nat)
    (out : List R) (inOff outOff : Nat) (impl : DotImpl) : Except PyErr (List R) :=
  if vec.length + inOff > 2 ^ n then .error .valueError
  else if out.length + outOff > 2 ^ n then .error .valueError
  else do
    let new ← normMats mats
    match impl with
    | .python => dotLoop new vec n out.length inOff outOff
    | .cython sched =>
      if new = [] ∨ ∃ gm ∈ new, ∃ gm' ∈ new, gm.1.length ≠ gm'.1.length then .error .valueError
      else cdotLoop sched new vec n out inOff outOff

/-- Whether a matrix object is a numpy array (or list), i.e. `numpy.array(m, dtype=complex128)` succeeds; `CMat` and
`SwapMat` objects raise TypeError there (qip/util.py:129). -/
def Mat.isDense : Mat R → Bool
  | .dense .. => true
  | _ => false

/-- `expand_kron_matrix`, qip/util.py:127-134: row `i` of the result receives `kronselect_dot` of the `i`-th unit
vector (Python kernel). -/
def expandKronMatrix [CommSemiring R] [DecidableEq R] (mats : List (Key × Mat R)) (n : Nat) :
    Except PyErr (List (List R)) :=
  if mats.all (fun km => km.2.isDense) then
    (List.range (2 ^ n)).mapM fun i =>
      kronselectDot mats ((List.replicate (2 ^ n) 0).set i 1) n (List.replicate (2 ^ n) 0) 0 0 .python
  else .error .typeError

end QIP
