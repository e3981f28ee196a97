import Verif.Model.Pool

/-!
# The connections of a worker (`qip/distributed/worker/worker.py`, class `WorkerPoolServer`)

The dictionaries in which a worker keeps its connections to other workers.  They are shared by the server thread (`run`), the
job being served (`make_connection` and the transfers) and `close_connections`; every method holds `workerlock`, so a history
is a list of calls.  Sockets are numbers, job ids too.
-/

namespace QIP

/-- `d.get(k)` -/
def dictGet {α β : Type} [DecidableEq α] (d : List (α × β)) (k : α) : Option β := (d.find? fun e => decide (e.1 = k)).map (·.2)

/-- `d[k] = v`: an existing key keeps its place. -/
def dictSet {α β : Type} [DecidableEq α] : List (α × β) → α → β → List (α × β)
  | [], k, v => [(k, v)]
  | e :: d, k, v => if e.1 = k then (k, v) :: d else e :: dictSet d k v

/-- `if k not in d: d[k] = []` and `d[k].append(v)`. -/
def dictAppend {α β : Type} [DecidableEq α] (d : List (α × List β)) (k : α) (v : β) : List (α × List β) :=
  dictSet d k ((dictGet d k).getD [] ++ [v])

/-- The ranges in a `WorkerPartner` message. -/
structure Ends where
  inp : Range
  out : Range
  deriving DecidableEq, Repr

/-- The dictionaries, worker.py:196-202.  `closed` is not a field of the code: the sockets closed so far. -/
structure ConnPool where
  /-- `self.workers` -/
  workers : List ((Nat × Ends) × Nat)
  /-- `self.inputrange_workers` -/
  byInput : List ((Nat × Range) × List (Nat × Range))
  /-- `self.outputrange_workers` -/
  byOutput : List ((Nat × Range) × List (Nat × Range))
  closed : List Nat

def ConnPool.init : ConnPool := ⟨[], [], [], []⟩

/-- The part of `run`, worker.py:216-229, and of `make_connection`, worker.py:371-384, under the lock: `e` are the ranges of the
connecting worker in `run`, those of the partner in `make_connection`. -/
def ConnPool.add (p : ConnPool) (job : Nat) (e : Ends) (sock : Nat) : ConnPool :=
  { p with
    workers := dictSet p.workers (job, e) sock
    byInput := dictAppend p.byInput (job, e.inp) (sock, e.out)
    byOutput := dictAppend p.byOutput (job, e.out) (sock, e.inp) }

/-- `job_id is None or job_id == key[0]`, worker.py:390, 395, 400. -/
def closes (job : Option Nat) (j : Nat) : Bool := match job with
  | none => true
  | some i => decide (i = j)

/-- `close_connections`, worker.py:386-401. -/
def ConnPool.close (p : ConnPool) (job : Option Nat) : ConnPool where
  workers := p.workers.filter fun e => ! closes job e.1.1
  byInput := p.byInput.filter fun e => ! closes job e.1.1
  byOutput := p.byOutput.filter fun e => ! closes job e.1.1
  closed := p.closed ++ (p.workers.filter fun e => closes job e.1.1).map (·.2)

/-- The socket used by `send_state_to_one` (worker.py:231-242) and `receive_state_from_one` (272-283); `none`: only an error
is logged. -/
def ConnPool.one (p : ConnPool) (job : Nat) (e : Ends) : Option Nat := dictGet p.workers (job, e)

/-- The sockets used by `send_state_to_all` (worker.py:244-259) and `receive_state_increments_from_all` (285-299), in order. -/
def ConnPool.all (p : ConnPool) (job : Nat) (range : Range) (inputdefined : Bool) : List Nat :=
  ((dictGet (if inputdefined then p.byInput else p.byOutput) (job, range)).getD []).map (·.1)

/-- The sockets used by `send_state_up_to`, worker.py:261-270, in order. -/
def ConnPool.upTo (p : ConnPool) (job : Nat) (range : Range) (threshold : Nat) : List Nat :=
  match dictGet p.byInput (job, range) with
  | none => []
  | some l => (l.filter fun e => ! decide (e.2.1 ≥ threshold)).map (·.1)

/-- A transfer over a socket: `send_state` or `receive_state`. -/
inductive Transfer where
  | send (sock : Nat)
  | recv (sock : Nat) (overwrite : Bool)
  deriving DecidableEq, Repr

/-- The transfers of a synchronisation on the worker of `job` with these ranges, worker.py:119-159. -/
def ConnPool.sync (p : ConnPool) (job : Nat) (inp out : Range) (upTo : Nat) (diagOverwrite : Bool) : List Transfer :=
  if inp.1 = out.1 ∧ inp.2 = out.2 then
    (if diagOverwrite then [] else (p.all job out false).map fun s => .recv s false) ++
    (if upTo ≠ 0 then (p.upTo job inp upTo).map .send else (p.all job inp true).map .send)
  else
    (if diagOverwrite then [] else (p.one job ⟨out, out⟩).toList.map .send) ++
    (if upTo ≠ 0 ∧ ¬ (upTo ≥ inp.2 ∧ upTo ≥ out.2) then [] else (p.one job ⟨inp, inp⟩).toList.map fun s => .recv s true)

/-- A call that changes the dictionaries. -/
inductive ConnEvent where
  | add (job : Nat) (e : Ends) (sock : Nat)
  | close (job : Option Nat)

/-- A history of calls. -/
def connRun (es : List ConnEvent) : ConnPool := es.foldl (fun p e => match e with
  | .add job e sock => p.add job e sock
  | .close job => p.close job) ConnPool.init

end QIP
