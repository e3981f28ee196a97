import Verif.Model.FDist
import Verif.Model.FDistMeasure

/-!
# Jobs of the distributed backend in rounded arithmetic

Kron products and measurements one after the other, on a state cut into `K` ranges.
-/

namespace QIP

variable {A : Arith}

/-- A request of the client: a kron product (`Model/FDist`) or a measurement (`Model/FDistMeasure`).  The buffers into which the workers
write, the schedules of their threads, the orders of their sums and of their connections are parameters. -/
inductive DCall (A : Arith)
  | kron (mats : List (Key × Mat (FC A))) (run : Nat → Nat → Nat) (arena : Nat → Nat → List (FC A)) (sched : Nat → Nat → List Nat)
      (order : Nat → List Nat)
  | measure (indices : List Nat) (arena : Nat → List ℂ)

/-- Requests one after the other, as the manager forwards them (`Manager.serve_client`, qip/distributed/manager.py:38-92, and `WorkerPool.send_op`, 197-211).  Every
measurement takes the next random numbers: that of the manager and those of the workers.  Result: the outcomes that the measurements
have chosen, including that of a measurement which then fails, and the state at the end or the error. -/
noncomputable def distRunF (F : FOps) (n K size : Nat) : List (DCall A) → List (ℝ × (Nat → ℝ)) → List (FC A) →
    List Nat × Except PyErr (List (FC A))
  | [], _, v => ([], .ok v)
  | .kron mats run arena sched order :: rest, xs, v =>
    match distKronF run mats n K size v arena sched order with
    | .error e => ([], .error e)
    | .ok v' => distRunF F n K size rest xs v'
  | .measure indices arena :: rest, xs, v =>
    let x := xs.headD (0, fun _ => 0)
    match distChooseF F indices n K size (v.map FC.val) x.1 x.2 with
    | .error e => ([], .error e)
    | .ok (m, _) =>
      match distMeasureF F indices n K size (v.map FC.val) arena x.1 x.2 with
      | .error e => ([m], .error e)
      | .ok (_, _, out) =>
        let res := distRunF F n K size rest xs.tail (out.map FC.mk)
        (m :: res.1, res.2)

end QIP
