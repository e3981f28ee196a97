import Mathlib.Logic.Function.Basic
import Verif.Model.Pool

/-!
# The manager's bookkeeping (`qip/distributed/manager.py`, class `Manager`)

The manager is shared by the session threads of its clients; all changes happen under locks, so a history is a list of
events.  `connected` and `live` are not fields of the code: they record which workers have connected and which
sessions are running.
-/

namespace QIP

/-- Fields of `Manager`, manager.py:23-30; `pools` is `job_pools` (`[]` for unknown handles). -/
structure MState where
  connected : List Wkr
  free : List Wkr
  pools : Nat → List Placed
  live : List Nat

def MState.init : MState := ⟨[], [], fun _ => [], []⟩

/-- How the part of a session after drawing the workers ends. -/
inductive SetupOutcome where
  /-- all workers and the client were told -/
  | ok
  /-- `allocate_workers` raises (a worker's socket is broken, or a field is out of range), manager.py:102 -/
  | allocateFails
  /-- the client's socket is broken when the handle is sent, manager.py:44 -/
  | replyFails
  deriving DecidableEq

/-- What can happen. -/
inductive MEvent where
  /-- `add_worker` -/
  | connect (w : Wkr)
  /-- a client asks for `n` qubits; `handle` is the fresh uuid -/
  | setup (n handle : Nat) (outcome : SetupOutcome)
  /-- a successful `send_reduce_measure` of the session with this threshold -/
  | reduce (handle threshold : Nat)
  /-- the session's loop ends: by a close request, a broken connection or an exception in an operation (these leave
  `pool.workers` unchanged); `sent` says whether `pool.close` could send its message to all workers -/
  | finish (handle : Nat) (sent : Bool)
  deriving DecidableEq

/-- Workers kept by `send_reduce_measure`, manager.py:427-432. -/
def keeps (threshold : Nat) (p : Placed) : Bool := decide (p.inp.2 ≤ threshold ∧ p.out.2 ≤ threshold)

/-- `Manager.add_worker` (32-34), `make_state` (93-110) with the start of `serve_client` (39-44), the operation branch
(56-62) for `reduce`, the `finally` block (80-90) with `WorkerPool.close` (462-471).  Other operations change
nothing. -/
def mgrStep (s : MState) : MEvent → MState
  | .connect w => { s with connected := s.connected ++ [w], free := s.free ++ [w] }
  | .setup n handle outcome =>
    match drawWorkers n s.free with
    | .error _ => s
    | .ok (un, rest, wn) =>
      match outcome, allocateWorkers n wn un with
      | .ok, .ok placed =>
        { s with free := rest, pools := Function.update s.pools handle placed, live := s.live ++ [handle] }
      | .replyFails, .ok placed => { s with free := rest, pools := Function.update s.pools handle placed }
      | _, _ => { s with free := rest }
  | .reduce handle threshold =>
    if handle ∈ s.live then
      { s with
        free := s.free ++ (((s.pools handle).filter fun p => !keeps threshold p).map Placed.worker)
        pools := Function.update s.pools handle ((s.pools handle).filter (keeps threshold)) }
    else s
  | .finish handle sent =>
    if handle ∈ s.live then
      if sent then
        { s with
          free := s.free ++ (s.pools handle).map Placed.worker
          pools := Function.update s.pools handle []
          live := s.live.erase handle }
      else { s with live := s.live.erase handle }
    else s

/-- A history. -/
def mgrRun (s : MState) (es : List MEvent) : MState := es.foldl mgrStep s

end QIP
