import Verif.Model.Pool
import Verif.Model.Wire
import Verif.Model.Worker

/-!
# A job of the distributed backend: setting up the workers, and the operations of the client

`qip/distributed/backend.py` (`DistributedBackend`), `qip/distributed/manager.py` (`make_state`, `allocate_workers`,
`send_op`) and `qip/distributed/worker/worker.py` (`WorkerInstance.__init__`).
-/

namespace QIP

/-- The `oneof state` of `State`, messages.proto:21-27. -/
inductive PbVal where
  | vector (v : PbVec)
  | index (k : Int)

/-- `State`, messages.proto:21-27. -/
structure PbState where
  indices : List Nat
  val : PbVal

/-- Loop body of `DistributedBackend.make_state`, backend.py:36-43.  `index` is an `int64` field. -/
noncomputable def stateToPb (group : List Nat) (s : InitState) : Except PyErr PbState := do
  let is ← indicesToPb (.tup group)
  match s with
  | .int k => if -2 ^ 63 ≤ k ∧ k < 2 ^ 63 then .ok ⟨is, .index k⟩ else .error .valueError
  | .vec v => .ok ⟨is, .vector (vecToPb v)⟩

/-- `DistributedBackend.make_state`, backend.py:33-43: the `states` of the message (`n` is an `int32` field; connecting to
the manager is left out). -/
noncomputable def setupStates (n : Nat) (groups : List (List Nat)) (feeds : List InitState) : Except PyErr (List PbState) :=
  if n < 2 ^ 31 then (groups.zip feeds).mapM fun gf => stateToPb gf.1 gf.2 else .error .valueError

/-- `Manager.make_state`, manager.py:94-112, and the messages of `allocate_workers`, 175-195: the placed workers and the
workers still free (the ends of ranges are `int64` fields). -/
def placeWorkers (n : Nat) (workers : List Wkr) : Except PyErr (List Placed × List Wkr) := do
  let (un, rest, wn) ← drawWorkers n workers
  let placed ← allocateWorkers n wn un
  if ∀ p ∈ placed, p.inp.2 < 2 ^ 63 ∧ p.out.2 < 2 ^ 63 then .ok (placed, rest) else .error .valueError

/-- `get_state_value`, worker.py:172-176. -/
noncomputable def pbStateValue (s : PbState) : Except PyErr InitState :=
  match s.val with
  | .vector v => do
    let v ← pbToVec v
    .ok (.vec v)
  | .index k => .ok (.int k)

/-- `WorkerInstance.__init__`, worker.py:29-55: the backend of a worker.  `arena` is the uninitialised output buffer. -/
noncomputable def workerInit (n : Nat) (states : List PbState) (p : Placed) (arena : List ℂ) : Except PyErr BState := do
  let feeds ← states.mapM pbStateValue
  makeState n (states.map PbState.indices) feeds p.inp.1 p.inp.2 arena

/-- The workers that `p` connects to, worker.py:42-48 (`setup.partners` are all workers, manager.py:180-188). -/
def workerPartners (placed : List Placed) (p : Placed) : List Placed :=
  if p.inp.1 ≠ p.out.1 then
    placed.filter fun q => decide (q.inp.1 = q.out.1 ∧ (q.inp.1 = p.inp.1 ∨ q.inp.1 = p.out.1))
  else []

/-- Position of a worker in the grid: the numbers of its ranges. -/
def Placed.wid (p : Placed) : Wid := (p.inp.1 / (p.inp.2 - p.inp.1), p.out.1 / (p.out.2 - p.out.1))

/-- The workers that connect to `p` (`WorkerPoolServer.run`, worker.py:206-229). -/
def connecting (placed : List Placed) (p : Placed) : List Placed :=
  placed.filter fun q => decide (p ∈ workerPartners placed q)

/-- What the client asks for: a kron product, or a measurement (with the requested outcome).  (`run` calls `kronselect_dot`
with the matrices of a gate, qip/operators.py, and `measure`, qip/qip.py.) -/
inductive JobOp where
  | kron (mats : List (Key × Mat ℂ))
  | measure (indices : List Nat) (measured : Option Int)

/-- `DistributedBackend.kronselect_dot`/`measure` up to the message (backend.py:56-61, 78-84), `send_op`
(manager.py:197-211) and the workers' decoding (worker.py:67-72, 83): the program of the manager.  A measurement does not
pass on the requested outcome.  `r` is `random.random()`. -/
noncomputable def opProg (ws : List Wid) (r : ℝ) : JobOp → Except PyErr MProg
  | .kron mats => do
    let pb ← matsToPb mats
    let mats' ← pbToMats pb
    .ok (sendKronprod mats' ws)
  | .measure indices _ => do
    let is ← indicesToPb (.tup indices)
    .ok (sendMeasure is r ws)

/-- `WorkerPool.MAX_TOP_K`, manager.py:129. -/
def maxTopK : Int := 2048

/-- `DistributedBackend.measure_probabilities`, backend.py:114-121 (`top_k` is an `int32` field), and `send_op`,
manager.py:206-209. -/
noncomputable def probsProg (ws : List Wid) (indices : List Nat) (topK : Int) : Except PyErr MProg := do
  let topK := if topK = 0 then 2 ^ indices.length else topK
  if ¬ (-2 ^ 31 ≤ topK ∧ topK < 2 ^ 31) then .error .valueError
  let is ← indicesToPb (.tup indices)
  if topK > maxTopK then .ok (.doneTop (.error .exception)) else .ok (sendMeasureTop is topK ws)

end QIP
