import Verif.Model.Worker

/-!
# `WorkerPool.send_reduce_measure`

`qip/distributed/manager.py:238-246, 356-441`.  Workers and ranges as in `Model/Worker`.
-/

namespace QIP

/-- `get_workers_up_to_output`, manager.py:238-246: the workers that are not skipped (line 241). -/
def upToOutput (size threshold : Nat) (ws : List Wid) : List Wid := ws.filter fun w => ¬ (w.2 * size > threshold)

/-- The keys of the ordered dictionary, in order of first insertion. -/
def reductionKeys (l : List Wid) : List Nat := (l.map Prod.fst).eraseDups

/-- The first worker of each input range, input ranges sorted; manager.py:367-368. -/
def firstWorkers (l : List Wid) : List Wid :=
  ((reductionKeys l).mergeSort fun a b => decide (a ≤ b)).map fun i => (l.filter fun w => w.1 = i).headD (0, 0)

/-- `all_reduction_workers`, manager.py:403: the lists of the dictionary, one after the other. -/
def allReduction (l : List Wid) : List Wid := (reductionKeys l).flatMap fun i => l.filter fun w => w.1 = i

/-- The test of line 428. -/
def stays (size threshold : Nat) (w : Wid) : Bool :=
  decide ((w.1 + 1) * size ≤ threshold ∧ (w.2 + 1) * size ≤ threshold)

/-- `self.workers` after the operation, manager.py:421-436. -/
def remainingWorkers (size threshold : Nat) (ws : List Wid) : List Wid := ws.filter (stays size threshold)

/-- The workers that are told to close and handed back, manager.py:431-432. -/
def doneWorkers (size threshold : Nat) (ws : List Wid) : List Wid := ws.filter fun w => ! stays size threshold w

/-- `threshold`, manager.py:359 (not more indices than qubits). -/
def reduceThreshold (n : Nat) (indices : List Nat) : Nat := 2 ^ (n - indices.length)

/-- `send_reduce_measure`, manager.py:356-441.  `r` is `random.random()`.  If no input range is selected,
`measured_inputs` is None and line 384 raises KeyError.  `ins != measured_inputs` (396) leaves out the selected one
(the input ranges are distinct). -/
noncomputable def sendReduceMeasure (n size : Nat) (indices : List Nat) (r : ℝ) (ws : List Wid) : MProg :=
  let threshold := reduceThreshold n indices
  let l := upToOutput size threshold ws
  let first := firstWorkers l
  mapWorkers .totalProb first fun confs =>
    match selectWorker (confs.map NMsg.prob) r with
    | none => .done (.error .keyError)
    | some i =>
      let sel := first.getD i (0, 0)
      .send sel (.soft indices none) <| .recv sel fun conf =>
        mapWorkers (.soft indices (some conf.bits)) (first.eraseIdx i) fun confs =>
          let p := conf.prob + (confs.map NMsg.prob).sum
          mapWorkers (.reduce indices (some (conf.bits, p))) (allReduction l) fun _ =>
            mapWorkers (.sync threshold false) (allReduction l) fun _ =>
              sendEach .close (doneWorkers size threshold ws) (.done (.ok (some (conf.bits, p))))

end QIP
