import Verif.Model.Manager

/-!
# Stopping the manager (`Manager.close`, `qip/distributed/manager.py:112-120`)

Which messages cannot be sent is given from outside; closing a socket is taken to succeed.  The sessions of the clients go on
afterwards (nothing tells them).
-/

namespace QIP

/-- The key that an event adds to `job_pools`, manager.py:103-104. -/
def newKey (s : MState) : MEvent → Option Nat
  | .setup n handle outcome =>
    match drawWorkers n s.free with
    | .error _ => none
    | .ok (un, _, wn) =>
      match outcome, allocateWorkers n wn un with
      | .allocateFails, _ => none
      | _, .ok _ => some handle
      | _, .error _ => none
  | _ => none

/-- The manager and the keys of `job_pools` in their order, after a history.  (Entries are never removed.) -/
def runKeys (es : List MEvent) : MState × List Nat :=
  es.foldl (fun sk e => (mgrStep sk.1 e, sk.2 ++ (newKey sk.1 e).toList)) (MState.init, [])

/-- `WorkerPool.close`, manager.py:462-471: the workers that were sent the message, and whether it went through. -/
def poolClose (ok : Wkr → Bool) : List Placed → List Wkr × Bool
  | [] => ([], true)
  | p :: ps =>
    if ok p.worker then
      let (told, all) := poolClose ok ps
      (p.worker :: told, all)
    else ([], false)

/-- The loop over the pools, manager.py:116-117. -/
def closePools (ok : Wkr → Bool) : List Nat → MState → List Wkr × MState × Bool
  | [], s => ([], s, true)
  | h :: hs, s =>
    match poolClose ok (s.pools h) with
    | (told, false) => (told, s, false)
    | (told, true) =>
      let (told', s', all) := closePools ok hs
        { s with free := s.free ++ (s.pools h).map Placed.worker, pools := Function.update s.pools h [] }
      (told ++ told', s', all)

/-- What `Manager.close` has done: the manager afterwards, the workers told that their job is over, the workers whose
connections were closed, and whether it returned. -/
structure Stopped where
  mgr : MState
  told : List Wkr
  shut : List Wkr
  returned : Bool

/-- `Manager.close`, manager.py:112-120. -/
def managerClose (ok : Wkr → Bool) (keys : List Nat) (s : MState) : Stopped :=
  match closePools ok keys s with
  | (told, s', true) => ⟨s', told, s'.free, true⟩
  | (told, s', false) => ⟨s', told, [], false⟩

end QIP
