import Verif.Model.Float

/-!
# Kron products of the distributed backend in rounded arithmetic

What the workers of a job compute for one kron product (`WorkerPool.send_kronprod`, `qip/distributed/manager.py:213-236`;
`WorkerInstance.run`, `qip/distributed/worker/worker.py:69-75, 119-159`) as a function of the state: that the processes do exactly
this, whatever their schedule, is C61 (`Model/Worker`, where amplitudes are exact; which messages are sent does not depend on amplitudes).
Amplitudes travel as doubles (`messages.proto`), so a transfer does not change them.
-/

namespace QIP

variable {A : Arith}

/-- The range `i` of a state, the part of the workers `(i, j)`. -/
def rangeOf (size : Nat) (v : List (FC A)) (i : Nat) : List (FC A) := (v.drop (i * size)).take size

/-- What worker `(i, j)` computes, worker.py:69-75 with `CythonBackend.kronselect_dot`, qip/backend.py:112-116. -/
noncomputable def workerKronF (run : Nat → Nat → Nat) (mats : List (Key × Mat (FC A))) (n size : Nat) (v : List (FC A))
    (arena : Nat → Nat → List (FC A)) (sched : Nat → Nat → List Nat) (i j : Nat) : Except PyErr (List (FC A)) :=
  kronselectDotF (run i j) mats (rangeOf size v i) n (arena i j) (i * size) (j * size) (sched i j)

/-- The new range `j`: the diagonal worker `(j, j)` adds what the workers `(i, j)` send, in the order of their connections
(`receive_state_increments_from_all`, worker.py:285-299, with `CythonBackend.addto_relative_range`, qip/backend.py:174-175). -/
noncomputable def collectKronF (run : Nat → Nat → Nat) (mats : List (Key × Mat (FC A))) (n size : Nat) (v : List (FC A))
    (arena : Nat → Nat → List (FC A)) (sched : Nat → Nat → List Nat) (order : List Nat) (j : Nat) : Except PyErr (List (FC A)) := do
  let own ← workerKronF run mats n size v arena sched j j
  order.foldlM (fun s i => do
    let part ← workerKronF run mats n size v arena sched i j
    pure (List.zipWith (· + ·) s part)) own

/-- The new state: its `K` ranges. -/
noncomputable def distKronF (run : Nat → Nat → Nat) (mats : List (Key × Mat (FC A))) (n K size : Nat) (v : List (FC A))
    (arena : Nat → Nat → List (FC A)) (sched : Nat → Nat → List Nat) (order : Nat → List Nat) : Except PyErr (List (FC A)) := do
  let parts ← (List.range K).mapM fun j => collectKronF run mats n size v arena sched (order j) j
  pure parts.flatten

end QIP
