import Verif.Model.Job

/-!
# Whole jobs, and several jobs at the same time

`ManagerServer.run` starts one thread per client, whose `serve_client` (`qip/distributed/manager.py:38-91`) performs the client's
operations one after the other; the threads of other clients and their workers run at the same time.  A worker process
serves one job at a time (`WorkerRunner.run`, worker.py:438-449) and has one socket for every partner in this job.
-/

namespace QIP

/-- Local state of a process of a whole job.  The thread of the manager: the results it has reported, the operation it is in
and the ones to come; or all its results. -/
inductive JLoc where
  | mgr (results : List (Option (Nat × ℝ))) (p : MProg) (todo : List MProg)
  | fin (results : List (Option (Nat × ℝ)))
  | wkr (s : WSt)

/-- The loop of the manager's thread, manager.py:48-73: after an operation the result is reported and the next operation
begins.  An operation that raised ends the job here (lines 74-91: the
error is reported and the workers are given back, C101). -/
def settle : List (Option (Nat × ℝ)) → MProg → List MProg → JLoc
  | rs, .done (.ok r), [] => .fin (rs ++ [r])
  | rs, .done (.ok r), q :: todo => settle (rs ++ [r]) q todo
  | rs, p, todo => .mgr rs p todo

/-- All processes of a whole job: as `netAct`, but the manager goes on with the next operation. -/
noncomputable def jobAct (prm : Wid → WParam) (p : Pid) (s : JLoc) : Act Pid NMsg JLoc :=
  match p, s with
  | none, .mgr rs (.send w o k) todo => .send (some w) (.op o) (settle rs k todo)
  | none, .mgr rs (.recv w k) todo => .recv (some w) fun m => settle rs (k m) todo
  | some w, .wkr s =>
    match workerAct (prm w) w s with
    | .halt => .halt
    | .send q m s' => .send q m (.wkr s')
    | .recv q k => .recv q fun m => .wkr (k m)
  | _, _ => .halt

/-- The start of a whole job: workers and messages of `c`, the manager is about to do `progs`. -/
def jobCfg (c : Cfg Pid NMsg NLoc) (progs : List MProg) : Cfg Pid NMsg JLoc :=
  ⟨fun x => match x with
    | none => match progs with
      | [] => .fin []
      | p :: todo => settle [] p todo
    | some w => match c.loc (some w) with
      | .wkr s => .wkr s
      | .mgr _ => .fin [], c.buf⟩

/-- A process of the whole system: the manager's thread for the job with this handle, or a worker.  (`nobody`: positions of
the grid that a job does not have.) -/
inductive Place where
  | mgr (handle : Nat)
  | wkr (w : Wkr)
  | nobody (handle : Nat) (w : Wid)
  deriving DecidableEq

/-- Who a process of a job is, manager.py:163-171: the worker placed at this position. -/
def placeOf (handle : Nat) (placed : List Placed) : Pid → Place
  | none => .mgr handle
  | some w => match placed.find? fun p => decide (p.wid = w) with
    | some p => .wkr p.worker
    | none => .nobody handle w

/-- What a process of the whole system does: it knows its job `j` and its role `p` in it, behaves as in this job, and its
sockets lead to the processes that have the roles of its partners in this job. -/
def sharedAct {J P Q M S : Type} (place : J → P → Q) (act : J → P → S → Act P M S) :
    Q → Option (J × P × S) → Act Q M (Option (J × P × S))
  | _, none => .halt
  | _, some (j, p, s) =>
    match act j p s with
    | .halt => .halt
    | .send d m s' => .send (place j d) m (some (j, p, s'))
    | .recv d k => .recv (place j d) fun m => some (j, p, k m)

end QIP
