import Verif.Model.Close
import Verif.Model.Jobs

/-!
# A manager and its workers over time: jobs one after the other

`Manager.serve_client` and `make_state` (`qip/distributed/manager.py:38-112`) run in one thread per client;
`WorkerRunner.run` (`qip/distributed/worker/worker.py:438-449`) serves one job after the other.  The connection between the
manager and a worker is kept for all jobs; the connections between workers are made for one job (they are looked up by its
id).  Connections between workers are taken to be there as soon as the job is set up (C64); failing sockets are not modelled here
(C67, C101, C102).
-/

namespace QIP

/-- What a client asks for, and the circumstances: the number of qubits and the fed states (`StateSetup`), the workers that the
manager places for the job, the uninitialised output buffers of the workers, what the workers' behaviour depends on, and the
programs of the manager for the operations. -/
structure ClusterJob where
  n : Nat
  states : List PbState
  placed : List Placed
  arena : Wid → List ℂ
  prm : Wid → WParam
  progs : List MProg

/-- The positions of the job's workers. -/
def ClusterJob.wids (j : ClusterJob) : List Wid := j.placed.map Placed.wid

/-- The worker placed at a position, manager.py:168-170. -/
def ClusterJob.who (j : ClusterJob) (w : Wid) : Option Wkr :=
  (j.placed.find? fun p => decide (p.wid = w)).map Placed.worker

/-- A message on a socket: the setup for job `h` at position `w` (`WorkerCommand`, manager.py:175-195), or one of the messages of
a job. -/
inductive CMsg where
  | setup (h : Nat) (w : Wid)
  | msg (m : NMsg)

/-- Where the thread of a client is. -/
inductive Thread where
  /-- in `allocate_workers`, manager.py:190-195: the workers still to be set up -/
  | setup (todo : List Wid)
  /-- in the loop of `serve_client` or in `pool.close` (manager.py:48-84); `fin`: `pool.close` has returned -/
  | run (l : JLoc)
  /-- the workers have been given back, manager.py:86-88 -/
  | ended (results : List (Option (Nat × ℝ)))

/-- Where a worker process is. -/
inductive Life where
  /-- waiting for a command, worker.py:442 -/
  | waiting
  /-- in `WorkerInstance.run` for job `h`, at position `w` -/
  | working (h : Nat) (w : Wid) (s : WSt)
  /-- ended by an exception -/
  | dead

/-- The manager and all workers: `free_workers`, the threads, the workers, the messages from the manager to each worker and back,
and the messages between the workers of a job. -/
structure Cluster where
  known : List Wkr
  free : List Wkr
  thread : Nat → Option Thread
  life : Wkr → Life
  down : Wkr → List CMsg
  up : Wkr → List CMsg
  peer : Nat → Wid × Wid → List CMsg

/-- The manager has just been started. -/
def Cluster.init : Cluster := ⟨[], [], fun _ => none, fun _ => .waiting, fun _ => [], fun _ => [], fun _ _ => []⟩

/-- The operations of a job and the end of the session, manager.py:48-84. -/
def ClusterJob.start (j : ClusterJob) : JLoc :=
  match j.progs ++ [closePool j.wids] with
  | [] => .fin []
  | p :: todo => settle [] p todo

/-- After a setup message: the next one, or the first operation. -/
def ClusterJob.next (j : ClusterJob) : List Wid → Thread
  | [] => .run j.start
  | w :: ws => .setup (w :: ws)

/-- `WorkerInstance.__init__`, worker.py:29-55, at the start of `WorkerRunner.run`'s call; an exception ends the worker. -/
noncomputable def ClusterJob.setUp (j : ClusterJob) (w : Wid) : Option WSt :=
  match j.placed.find? fun p => decide (p.wid = w) with
  | none => none
  | some p =>
    match workerInit j.n j.states p (j.arena w) with
    | .ok b => some ⟨b, .idle, 0⟩
    | .error _ => none

/-- After a step of a worker in a job: it goes on, has left the job (worker.py:64-65, 164-166, back in line 440), or died. -/
def afterStep (h : Nat) (w : Wid) (s : WSt) : Life :=
  match s.pc with
  | .closed => .waiting
  | .crashed => .dead
  | _ => .working h w s

/-- What a process in a job reads; a setup message is none of the messages expected there. -/
def CMsg.read {S : Type} (die : S) (k : NMsg → S) : CMsg → S
  | .msg m => k m
  | .setup _ _ => die

/-- One step of the thread of job `h`. -/
def threadStep (jobs : Nat → ClusterJob) (h : Nat) (C : Cluster) : Option Cluster :=
  match C.thread h with
  | some (.setup (w :: ws)) =>
    match (jobs h).who w with
    | none => none
    | some k => some { C with
        thread := Function.update C.thread h (some ((jobs h).next ws))
        down := Function.update C.down k (C.down k ++ [.setup h w]) }
  | some (.run (.mgr rs (.send w o k) todo)) =>
    match (jobs h).who w with
    | none => none
    | some x => some { C with
        thread := Function.update C.thread h (some (.run (settle rs k todo)))
        down := Function.update C.down x (C.down x ++ [.msg (.op o)]) }
  | some (.run (.mgr rs (.recv w k) todo)) =>
    match (jobs h).who w with
    | none => none
    | some x =>
      match C.up x with
      | [] => none
      | m :: rest => some { C with
          thread := Function.update C.thread h (some (.run (m.read (.mgr rs (.done (.error .exception)) todo)
            fun m => settle rs (k m) todo)))
          up := Function.update C.up x rest }
  | some (.run (.fin rs)) => some { C with
      thread := Function.update C.thread h (some (.ended rs))
      free := C.free ++ (jobs h).placed.map Placed.worker }
  | _ => none

/-- One step of worker `x`: a command (worker.py:438-449), or a step in its job. -/
noncomputable def workerStep (jobs : Nat → ClusterJob) (x : Wkr) (C : Cluster) : Option Cluster :=
  match C.life x with
  | .waiting =>
    match C.down x with
    | [] => none
    | .setup h w :: rest => some { C with
        life := Function.update C.life x (match (jobs h).setUp w with
          | some s => .working h w s
          | none => .dead)
        down := Function.update C.down x rest }
    | .msg _ :: rest => some { C with
        life := Function.update C.life x .dead
        down := Function.update C.down x rest }
  | .working h w s =>
    match workerAct ((jobs h).prm w) w s with
    | .halt => none
    | .send none m s' => some { C with
        life := Function.update C.life x (afterStep h w s')
        up := Function.update C.up x (C.up x ++ [.msg m]) }
    | .send (some v) m s' => some { C with
        life := Function.update C.life x (afterStep h w s')
        peer := Function.update C.peer h (Function.update (C.peer h) (w, v) (C.peer h (w, v) ++ [.msg m])) }
    | .recv none k =>
      match C.down x with
      | [] => none
      | m :: rest => some { C with
          life := Function.update C.life x (m.read .dead fun m => afterStep h w (k m))
          down := Function.update C.down x rest }
    | .recv (some v) k =>
      match C.peer h (v, w) with
      | [] => none
      | m :: rest => some { C with
          life := Function.update C.life x (m.read .dead fun m => afterStep h w (k m))
          peer := Function.update C.peer h (Function.update (C.peer h) (v, w) rest) }
  | .dead => none

/-- What happens: a worker connects (`add_worker`, manager.py:31-33), a client asks for a job (`make_state`, manager.py:94-112,
up to the first setup message: drawing is done under a lock), or a process makes a step. -/
inductive CEvent where
  | connect (x : Wkr)
  | ask (h : Nat)
  | thread (h : Nat)
  | worker (x : Wkr)

/-- The events that are steps of processes. -/
def CEvent.isStep : CEvent → Bool
  | .thread _ => true
  | .worker _ => true
  | _ => false

/-- One event, if it can happen.  Job ids are new (`uuid4`); `jobs h` says which workers the job gets, which has to be what
`make_state` does with the workers free at this time.  (A client asking for too many qubits changes nothing, C59.) -/
noncomputable def Cluster.step (jobs : Nat → ClusterJob) (C : Cluster) : CEvent → Option Cluster
  | .connect x => if x ∈ C.known then none else some { C with known := C.known ++ [x], free := C.free ++ [x] }
  | .ask h =>
    match C.thread h, placeWorkers (jobs h).n C.free with
    | none, .ok (placed, rest) =>
      if placed = (jobs h).placed then some { C with
        free := rest
        thread := Function.update C.thread h (some ((jobs h).next (jobs h).wids)) } else none
    | _, _ => none
  | .thread h => threadStep jobs h C
  | .worker x => workerStep jobs x C

/-- The events happen in this order. -/
noncomputable def Cluster.run (jobs : Nat → ClusterJob) : Cluster → List CEvent → Option Cluster
  | C, [] => some C
  | C, e :: es => (C.step jobs e).bind fun C' => Cluster.run jobs C' es

end QIP
