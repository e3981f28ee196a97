import Verif.Model.Accept
import Verif.Model.Err

/-!
# The life of a worker process (`WorkerRunner.run` and the main program, `qip/distributed/worker/worker.py:438-464`)

A job is the parameter `serve`: the exception that `WorkerInstance(...)` or its `run` (446-447) raises, if any.  What happens within
a job is modelled elsewhere (`Model/Cluster.lean`, `Model/Jobs.lean`, `Model/Net.lean`).
-/

namespace QIP

/-- A `WorkerCommand`, messages.proto:95-100; `unset`: no member of the `oneof` is set. -/
inductive WorkerCmd (σ : Type) where
  | setup (s : σ)
  | shutdown (b : Bool)
  | unset

/-- The names of the fields of `WorkerCommand`, messages.proto:97-98. -/
def WorkerCmd.fields : List String := ["setup", "shutdown"]

/-- The member of the `oneof` that is set. -/
def WorkerCmd.which {σ : Type} : WorkerCmd σ → Option String
  | .setup _ => some "setup"
  | .shutdown _ => some "shutdown"
  | .unset => none

/-- `cmd.HasField(name)` of the protobuf library: ValueError for a name that is no field of the message. -/
def WorkerCmd.hasField {σ : Type} (c : WorkerCmd σ) (name : String) : Except PyErr Bool :=
  if name ∈ WorkerCmd.fields then .ok (c.which = some name) else .error .valueError

/-- What `WorkerCommand.FromString(self.socket.recv())`, worker.py:442, meets: a command, data that is no command, or the end of the
connection. -/
inductive Heard (σ : Type) where
  | cmd (c : WorkerCmd σ)
  | garbage
  | lost

/-- The exceptions that end the thread. -/
inductive RunnerErr where
  | py (e : PyErr)
  /-- `recv` on a closed connection, formatsock.py -/
  | ioError
  /-- `FromString` -/
  | decodeError
  deriving DecidableEq

/-- The body of the loop, worker.py:441-449: the jobs that were begun, and the new value of `self.running` or the exception. -/
def runnerBody {σ : Type} (serve : σ → Option RunnerErr) : Heard σ → List σ × Except RunnerErr Bool
  | .lost => ([], .error .ioError)
  | .garbage => ([], .error .decodeError)
  | .cmd c =>
    match c.hasField "setup" with
    | .error e => ([], .error (.py e))
    | .ok true =>
      match c with
      | .setup s =>
        match serve s with
        | some e => ([s], .error e)
        | none => ([s], .ok true)
      | _ => ([], .ok true)
    | .ok false =>
      match c.hasField "close" with
      | .error e => ([], .error (.py e))
      | .ok true => ([], .ok false)
      | .ok false => ([], .ok true)

/-- How the loop stands: it waits for the next command, it was left with `running = False`, or an exception ended the thread. -/
inductive RunnerEnd where
  | waiting
  | returned
  | raised (e : RunnerErr)
  deriving DecidableEq

/-- `while self.running`, worker.py:440, with what is heard from the manager. -/
def runnerLoop {σ : Type} (serve : σ → Option RunnerErr) : Bool → List (Heard σ) → List σ × RunnerEnd
  | false, _ => ([], .returned)
  | true, [] => ([], .waiting)
  | true, h :: hs =>
    match runnerBody serve h with
    | (js, .error e) => (js, .raised e)
    | (js, .ok running) => (js ++ (runnerLoop serve running hs).1, (runnerLoop serve running hs).2)

/-- `WorkerRunner.run` after `__init__`, worker.py:436-449. -/
def runnerRun {σ : Type} (serve : σ → Option RunnerErr) (hs : List (Heard σ)) : List σ × RunnerEnd := runnerLoop serve true hs

/-- The process of the main program, worker.py:452-464: the interpreter ends when all threads that are no daemons have, which are the
`WorkerRunner` and its `WorkerPoolServer` (425-426).  `cs` are the connections that other workers make. -/
def processEnded {σ α : Type} (serve : σ → Option RunnerErr) (decode : Bytes → Option α) (hs : List (Heard σ)) (cs : List Incoming) :
    Bool :=
  let pool := (serverRun (partnerOne decode) (cs.map .conn)).loop
  decide ((runnerRun serve hs).2 ≠ .waiting ∧ (pool = .dead ∨ pool = .ended))

end QIP
