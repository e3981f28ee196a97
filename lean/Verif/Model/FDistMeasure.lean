import Verif.Model.FMeasure

/-!
# Measurements of the distributed backend in rounded arithmetic

What the manager and the diagonal workers of a job compute for one measurement (`WorkerPool.send_measure`,
`qip/distributed/manager.py:248-306`; `WorkerInstance.run`, `qip/distributed/worker/worker.py:77-117`) as a function of the state and
of the random numbers: which messages are sent is C65 and C96 (`Model/Worker`, where probabilities are exact).  Probabilities travel as
doubles (`messages.proto`), so a message does not change them.
-/

namespace QIP

variable (F : FOps)

/-- The part of the state that the diagonal worker `i` holds. -/
def shareOf (size : Nat) (v : List ℂ) (i : Nat) : List ℂ := (v.drop (i * size)).take size

/-- The loop that selects a worker, manager.py:258-267: position of the selected one. -/
noncomputable def selectWorkerF : List ℝ → ℝ → Option Nat
  | [], _ => none
  | p :: ps, r => if F.sub r p ≤ 0 then some 0 else (selectWorkerF ps (F.sub r p)).map (· + 1)

/-- The outcome and its probability, manager.py:252-287.  `r` is the random number of the manager, `draw i` that of worker `i` (used by
the selected one only).  If no worker is selected, `selected_worker` is None and line 272 raises AttributeError.  The sum in line 285
runs over the other workers in their order (`F.acc`; since Python 3.12 `sum` compensates errors). -/
noncomputable def distChooseF (indices : List Nat) (n K size : Nat) (v : List ℂ) (r : ℝ) (draw : Nat → ℝ) : Except PyErr (Nat × ℝ) :=
  match selectWorkerF F ((List.range K).map fun i => probMagnitudeF F 0 (shareOf size v i)) r with
  | none => .error .attributeError
  | some s => do
    let (m, p) ← softMeasureF F indices n (shareOf size v s) none (s * size) (draw s) 0
    let others ← ((List.range K).eraseIdx s).mapM fun i =>
      softMeasureF F indices n (shareOf size v i) (some m) (i * size) (draw i) 0
    pure (m, F.add p (F.acc 0 (others.map (·.2))))

/-- `send_measure`, manager.py:248-306: outcome, its probability and the new state (the parts of the diagonal workers, which the others
get in the synchronisation).  An error in `measure` kills the worker, and the manager waits for ever (C96). -/
noncomputable def distMeasureF (indices : List Nat) (n K size : Nat) (v : List ℂ) (arena : Nat → List ℂ) (r : ℝ) (draw : Nat → ℝ) :
    Except PyErr (Nat × ℝ × List ℂ) := do
  let (m, p) ← distChooseF F indices n K size v r draw
  let parts ← (List.range K).mapM fun i =>
    measureF F indices n (shareOf size v i) (arena i) (i * size) (i * size) (some m) (some p) (draw i) 0
  pure (m, p, (parts.map (·.2.2)).flatten)

end QIP
