import Verif.Model.Err

/-!
# Drawing and placing workers (`qip/distributed/manager.py`, class `WorkerPool`)
-/

namespace QIP

/-- A connected worker (`AnnotatedSocket`, manager.py:474-477): its socket (a number) and the advertised
`n_qubits` (non-negative). -/
structure Wkr where
  sock : Nat
  nq : Nat
  deriving DecidableEq, Repr

/-- `required_workers = pow(2, 2 * max(self.n - worker_n, 0))`, manager.py:146, 153. -/
def requiredWorkers (n wn : Nat) : Nat := 2 ^ (2 * (n - wn))

/-- The `while` loop of `draw_workers`, manager.py:147-153.  `un` is `self.unallocated_workers` (last appended last),
`copy` is `copy_workers`; popping from an empty list is an IndexError. -/
def drawLoop (n : Nat) (un copy : List Wkr) (wn : Nat) : Except PyErr (List Wkr × List Wkr × Nat) :=
  if un.length < requiredWorkers n wn ∧ 0 < copy.length then
    if h : copy.length < requiredWorkers n wn - un.length then .error .indexError
    else
      let k := copy.length - (requiredWorkers n wn - un.length)
      let un' := un ++ (copy.drop k).reverse
      drawLoop n un' (copy.take k) ((un'.getLast?.map Wkr.nq).getD 0)
  else .ok (un, copy, wn)
termination_by copy.length
decreasing_by
  rename_i hc
  simp only [List.length_take]
  omega

/-- `WorkerPool.draw_workers`, manager.py:138-158: the drawn workers, the remaining ones and `min_worker_n`.
`sorted` is stable. -/
def drawWorkers (n : Nat) (workers : List Wkr) : Except PyErr (List Wkr × List Wkr × Nat) :=
  let copy := workers.mergeSort fun a b => decide (a.nq ≤ b.nq)
  match copy.getLast? with
  | none => .error .indexError
  | some w => do
    let (un, rest, wn) ← drawLoop n [w] copy.dropLast w.nq
    if workers.length < requiredWorkers n wn then .error .valueError
    else .ok (un, rest, wn)

/-- A range of basis indices, end exclusive. -/
abbrev Range := Nat × Nat

/-- `workerranges`, manager.py:162-166. -/
def workerRanges (n wn : Nat) : List Range :=
  let workern := min wn n
  let seps := (List.range (2 ^ (n - workern) + 1)).map fun i => i <<< workern
  seps.dropLast.zip seps.tail

/-- A worker with its input and output range (`self.workers`). -/
structure Placed where
  inp : Range
  out : Range
  worker : Wkr
  deriving DecidableEq, Repr

/-- Loop body of `allocate_workers`, manager.py:170. -/
def allocStep (st : List Wkr × List Placed) (io : Range × Range) : Except PyErr (List Wkr × List Placed) :=
  match st.1.getLast? with
  | none => .error .indexError
  | some w => .ok (st.1.dropLast, st.2 ++ [⟨io.1, io.2, w⟩])

/-- The two nested loops of `allocate_workers`, manager.py:168-170: every pair of ranges takes the last remaining
worker; the assertion of line 173.  (The messages then sent to the workers are modelled with the manager.) -/
def allocateWorkers (n wn : Nat) (un : List Wkr) : Except PyErr (List Placed) := do
  let pairs := (workerRanges n wn).flatMap fun i => (workerRanges n wn).map fun o => (i, o)
  let (un', placed) ← pairs.foldlM allocStep (un, [])
  if un'.length = 0 then .ok placed else .error .exception

end QIP
