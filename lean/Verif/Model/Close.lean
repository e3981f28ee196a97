import Verif.Spec.Job

/-!
# The end of a job on the network (`WorkerPool.close`, `qip/distributed/manager.py:462-470`)
-/

namespace QIP

/-- `WorkerPool.close`, manager.py:462-470: the workers do not reply (worker.py:64-65). -/
def closePool (ws : List Wid) : MProg := sendEach .close ws (.done (.ok none))

/-- The connection to worker `w` is lost while the manager waits for its report: `recv` raises IOError (formatsock.py:61), which leaves
`send_op` and is handled in `serve_client` (manager.py:70-82); the `finally` block closes the pool.  (An end of the stream lets the
manager send once more without an exception.) -/
inductive LosesWorker (ws : List Wid) (w : Wid) : Cfg Pid NMsg NLoc → Cfg Pid NMsg NLoc → Prop where
  | lost {c : Cfg Pid NMsg NLoc} {k : NMsg → MProg} (h : c.loc none = .mgr (.recv w k)) :
    LosesWorker ws w c (Spec.startOp c (closePool ws))

end QIP
