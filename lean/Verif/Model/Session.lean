import Mathlib.Data.Real.Basic
import Verif.Model.Manager

/-!
# The session of a client (`Manager.serve_client` and `make_state`, `qip/distributed/manager.py:39-110`)

What is sent to the client, and what happens to the workers.  The results of `pool.send_op` are given from outside (they are
modelled in `Model/Worker`, `Model/Job` and `Model/Reduce`), and so is which messages cannot be sent.
-/

namespace QIP

/-- How `pool.send_op` ends, manager.py:200-211. -/
inductive OpRes where
  /-- it returns; `threshold` is given for a reducing measurement, which gives workers back (427-440) -/
  | ok (threshold : Option Nat) (data : Option (Nat × ℝ))
  /-- a connection to a worker fails -/
  | ioError
  /-- another exception: a large `top_k` (207-208), `NotImplemented` (203), no selected worker (272), an error message of a
  worker (453-454) -/
  | raises (e : PyErr)

/-- What `sock.recv()` brings, manager.py:51.  `sent`: the reply (69) can be sent.  (A message that cannot be decoded or has no
known field raises inside the `try`, as `op (.raises _)`.) -/
inductive Request where
  | op (res : OpRes) (sent : Bool)
  | close (sent : Bool)
  /-- the connection of the client fails -/
  | gone

/-- Messages to the client: the handle (44; 106, 109) and the confirmations (63-69; 72-75). -/
inductive Answer where
  | handle (h : Nat)
  | noState
  | confirm (data : Option (Nat × ℝ))
  | error

/-- Where the session is: waiting in line 42 or 51; over, having returned; over, an exception having left the function. -/
inductive Ending where
  | waiting
  | returned
  | escaped
  deriving DecidableEq

/-- A session: the messages sent, the manager afterwards, how it ended, whether the connection was closed (line 90). -/
structure Served where
  answers : List Answer
  mgr : MState
  ending : Ending
  closed : Bool

/-- The `finally` block, manager.py:80-90; `told`: all workers could be sent the close message (466-467).  `ending` is how the
function ends if this block raises nothing. -/
def sessionEnd (h : Nat) (told : Bool) (s : MState) (answers : List Answer) (ending : Ending) : Served :=
  if told then ⟨answers, mgrStep s (.finish h true), ending, true⟩
  else ⟨answers, mgrStep s (.finish h false), .escaped, false⟩

/-- The handler of `IOError`, manager.py:70-78, then the `finally` block; `excuse`: the error message could be sent. -/
def sessionFails (h : Nat) (told excuse : Bool) (s : MState) : Served :=
  sessionEnd h told s (if excuse then [.error] else []) .returned

/-- The manager after an operation, manager.py:58-62 (`self.workers` changes in line 435). -/
def afterOp (h : Nat) (threshold : Option Nat) (s : MState) : MState :=
  match threshold with
  | none => s
  | some t => mgrStep s (.reduce h t)

/-- The loop, manager.py:47-69. -/
def serveLoop (h : Nat) (told excuse : Bool) : List Request → MState → Served
  | [], s => ⟨[], s, .waiting, false⟩
  | .gone :: _, s => sessionFails h told excuse s
  | .close sent :: _, s =>
    if sent then sessionEnd h told s [.confirm none] .returned else sessionFails h told excuse s
  | .op (.ok threshold data) sent :: rest, s =>
    if sent then
      let r := serveLoop h told excuse rest (afterOp h threshold s)
      { r with answers := .confirm data :: r.answers }
    else sessionFails h told excuse (afterOp h threshold s)
  | .op .ioError _ :: _, s => sessionFails h told excuse s
  | .op (.raises _) _ :: _, s => sessionEnd h told s [] .escaped

/-- The loop with the empty handle of a failed setup: `self.job_pools['']` raises KeyError in an operation (56) and in the `finally`
block (82), so that no request gets further. -/
def serveNothing (excuse : Bool) (s : MState) : List Request → Served
  | [] => ⟨[], s, .waiting, false⟩
  | .gone :: _ => ⟨if excuse then [.error] else [], s, .escaped, false⟩
  | .close sent :: _ => ⟨if sent then [.confirm none] else if excuse then [.error] else [], s, .escaped, false⟩
  | .op _ _ :: _ => ⟨[], s, .escaped, false⟩

/-- How `allocate_workers` ends: it returns, raises ValueError (caught in line 108), or another exception. -/
inductive AllocEnd where
  | ok
  | valueError
  | raises
  deriving DecidableEq

/-- `serve_client`, manager.py:39-90, with `make_state`, 92-110, for a client that asks for `n` qubits; `h` is the uuid of line 101,
`sent` says whether the handle could be sent. -/
def serveClient (s : MState) (n h : Nat) (alloc : AllocEnd) (sent told excuse : Bool) (reqs : List Request) : Served :=
  match drawWorkers n s.free with
  | .error _ => ⟨[], s, .escaped, false⟩
  | .ok (un, rest, wn) =>
    match alloc, allocateWorkers n wn un with
    | .ok, .ok placed =>
      let s' := { s with free := rest, pools := Function.update s.pools h placed }
      if sent then
        let r := serveLoop h told excuse reqs { s' with live := s.live ++ [h] }
        { r with answers := .handle h :: r.answers }
      else ⟨[], s', .escaped, false⟩
    | .valueError, .ok _ =>
      if sent then
        let r := serveNothing excuse { s with free := rest } reqs
        { r with answers := .noState :: r.answers }
      else ⟨[], { s with free := rest }, .escaped, false⟩
    | _, _ => ⟨[], { s with free := rest }, .escaped, false⟩

end QIP
