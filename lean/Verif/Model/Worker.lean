import Verif.Model.Backend
import Verif.Model.Net
import Verif.Model.Top

/-!
# Workers and the manager's operations as processes

`qip/distributed/worker/worker.py` (`WorkerInstance.run`, `WorkerPoolServer`) and `qip/distributed/manager.py`
(`WorkerPool.send_op` and what it calls).

The workers of a job form a grid: worker `(i, j)` has the input range `[i * size, (i + 1) * size)` and the output range
`[j * size, (j + 1) * size)` (the ranges of `allocate_workers`, C60).  A range is identified with its number, also in the
keys of `inputrange_workers`, `outputrange_workers` and `workers`.  All messages of a job carry the same job id (sockets
are looked up by job id), so ids and their checks are left out.
-/

namespace QIP

/-- A worker of the grid. -/
abbrev Wid := Nat × Nat

/-- Manager (`none`) and workers. -/
abbrev Pid := Option Wid

/-- `WorkerOperation`, messages.proto:139-149, as far as used: `measure` with `soft` and `reduce` set accordingly, the
measurement result (bits; bits and probability) if present.  `sync`: `set_up_to` (0 if not set) and
`diagonal_overwrite`. -/
inductive WOp where
  | kron (mats : List (Key × Mat ℂ))
  | totalProb
  | soft (indices : List Nat) (measured : Option Nat)
  | measure (indices : List Nat) (result : Option (Nat × ℝ))
  | reduce (indices : List Nat) (result : Option (Nat × ℝ))
  | top (indices : List Nat) (topK : Int)
  | sync (upTo : Nat) (diagOverwrite : Bool)
  | close

/-- The messages: operations, `WorkerConfirm` without and with a measurement result (bits, probability; or the `top_k`
outcomes with their probabilities), `SyncAccept` and `SyncState`. -/
inductive NMsg where
  | op (o : WOp)
  | conf
  | result (bits : Option Nat) (prob : ℝ)
  | tops (items : Report)
  | accept (chunkSize maxInflight : Nat)
  | data (start : Nat) (amps : List ℂ) (done : Bool)

/-- One transfer of a synchronisation: `send_state` to, or `receive_state` from another worker (overwriting or
adding). -/
inductive Task where
  | sendTo (q : Wid)
  | recvFrom (q : Wid) (overwrite : Bool)

/-- Where a worker is inside a transfer. -/
inductive Cur where
  /-- `send_state`, line 303 -/
  | sAccept (q : Wid)
  /-- `send_state`, lines 310-329: `last_index`, `inflight`, `chunk_size`, `max_inflight` -/
  | sLoop (q : Wid) (last : Nat) (inflight : Int) (chunk maxInflight : Nat)
  /-- `receive_state`, line 339 -/
  | rAccept (q : Wid) (overwrite : Bool)
  /-- `receive_state`, line 343 -/
  | rData (q : Wid) (overwrite : Bool)
  /-- `receive_state`, line 356, the last message had this `done` -/
  | rAck (q : Wid) (overwrite done : Bool)

/-- Where a worker is. -/
inductive Pc where
  /-- waiting for an operation, worker.py:60 -/
  | idle
  /-- about to report to the manager -/
  | reply (m : NMsg)
  /-- in a synchronisation, with the transfers to do afterwards -/
  | xfer (cur : Cur) (todo : List Task)
  /-- left the loop (close) -/
  | closed
  /-- died with an exception -/
  | crashed

/-- State of a worker: its backend, and how many operations it has received. -/
structure WSt where
  b : BState
  pc : Pc
  cnt : Nat

/-- What a worker's behaviour depends on besides its state: the size of ranges, the connections that have arrived at
its server thread, in this order (only diagonal workers receive connections), the arguments of `receive_state`, and
for every operation the thread schedule of the kernel, the random draw and the content of the uninitialised
accumulator of `prob_magnitude`. -/
structure WParam where
  size : Nat
  regs : List Wid
  chunk : Nat
  inflight : Nat
  sched : Nat → List Nat
  draw : Nat → ℝ
  garbage : Nat → ℝ

/-- After a transfer: the next one, or report. -/
def nextTask : List Task → Pc
  | [] => .reply .conf
  | .sendTo q :: ts => .xfer (.sAccept q) ts
  | .recvFrom q ow :: ts => .xfer (.rAccept q ow) ts

/-- The transfers of a synchronisation, worker.py:119-159: `receive_state_increments_from_all` (285-299),
`send_state_up_to` (261-270), `send_state_to_all` (244-259), `send_state_to_one` (231-242), `receive_state_from_one`
(272-283).  Connections are in the dictionaries under the ranges of the connecting worker (`run`, 206-229, on the
diagonal; `make_connection`, 359-387, off the diagonal, where the two partners are the diagonal workers of the own
ranges, 42-48). -/
def syncTasks (prm : WParam) (w : Wid) (upTo : Nat) (diagOverwrite : Bool) : List Task :=
  if w.1 = w.2 then
    (if diagOverwrite then [] else (prm.regs.filter fun r => r.2 = w.2).map fun r => .recvFrom r false) ++
    (if upTo ≠ 0 then ((prm.regs.filter fun r => r.1 = w.1).filter fun r => r.2 * prm.size < upTo).map .sendTo
      else (prm.regs.filter fun r => r.1 = w.1).map .sendTo)
  else
    (if diagOverwrite then [] else [.sendTo (w.2, w.2)]) ++
    (if upTo ≠ 0 ∧ ¬ (upTo ≥ (w.1 + 1) * prm.size ∧ upTo ≥ (w.2 + 1) * prm.size) then []
      else [.recvFrom (w.1, w.1) true])

/-- One operation, worker.py:64-162: new backend, and what to do next. -/
noncomputable def handleOp (prm : WParam) (w : Wid) (s : WSt) : WOp → BState × Pc
  | .kron mats =>
    match s.b.kronselectDot mats (w.1 * prm.size) (w.2 * prm.size) (prm.sched s.cnt) with
    | (.ok _, b) => (b, .reply .conf)
    | (.error _, b) => (b, .crashed)
  | .totalProb => (s.b, .reply (.result none (s.b.totalProb (prm.garbage s.cnt))))
  | .soft indices measured =>
    match softMeasure indices s.b.n s.b.state measured (w.1 * prm.size) (prm.draw s.cnt) (prm.garbage s.cnt) with
    | .ok (m, p) => (s.b, .reply (.result (some m) p))
    | .error _ => (s.b, .crashed)
  | .measure indices res =>
    match s.b.measure indices (res.map fun r => (r.1 : Int)) (res.map Prod.snd) (w.1 * prm.size) (w.2 * prm.size)
        (prm.draw s.cnt) (prm.garbage s.cnt) with
    | (.ok (m, p), b) => (b, .reply (.result (some m) p))
    | (.error _, b) => (b, .crashed)
  | .reduce indices res =>
    match s.b.reduceMeasure indices (res.map fun r => (r.1 : Int)) (res.map Prod.snd) (w.1 * prm.size)
        (w.2 * prm.size) (prm.draw s.cnt) (prm.garbage s.cnt) with
    | (.ok (m, p), b) => (b, .reply (.result (some m) p))
    | (.error _, b) => (b, .crashed)
  | .top indices topK =>
    match s.b.measureProbabilities indices topK with
    | .ok (.inr (ms, ps)) => (s.b, .reply (.tops (ms.zip ps)))
    | _ => (s.b, .crashed)
  | .sync upTo d => (s.b, nextTask (syncTasks prm w upTo d))
  | .close => (s.b, .closed)

/-- The worker's next communication: the loop of `WorkerInstance.run` (57-166), `send_state` (302-329) and
`receive_state` (332-357).  A message of the wrong kind makes the worker die. -/
noncomputable def workerAct (prm : WParam) (w : Wid) (s : WSt) : Act Pid NMsg WSt :=
  match s.pc with
  | .idle => .recv none fun m =>
    match m with
    | .op o => let (b, pc) := handleOp prm w s o; ⟨b, pc, s.cnt + 1⟩
    | _ => { s with pc := .crashed }
  | .reply m => .send none m { s with pc := .idle }
  | .xfer (.sAccept q) ts => .recv (some q) fun m =>
    match m with
    | .accept ch mx =>
      if 0 < s.b.state.length then { s with pc := .xfer (.sLoop q 0 0 ch mx) ts } else { s with pc := nextTask ts }
    | _ => { s with pc := .crashed }
  | .xfer (.sLoop q last infl ch mx) ts =>
    if infl < mx ∧ last < s.b.state.length then
      let stop := last + min (s.b.state.length - last) ch
      .send (some q) (.data last (s.b.getRange last stop) (decide (stop = s.b.state.length)))
        { s with pc := .xfer (.sLoop q stop (infl + 1) ch mx) ts }
    else .recv (some q) fun m =>
      match m with
      | .accept ch' mx' =>
        if last < s.b.state.length then { s with pc := .xfer (.sLoop q last (infl - 1) ch' mx') ts }
        else { s with pc := nextTask ts }
      | _ => { s with pc := .crashed }
  | .xfer (.rAccept q ow) ts =>
    .send (some q) (.accept prm.chunk prm.inflight) { s with pc := .xfer (.rData q ow) ts }
  | .xfer (.rData q ow) ts => .recv (some q) fun m =>
    match m with
    | .data start amps d =>
      match if ow then s.b.overwriteRange start (start + amps.length) amps
        else s.b.addtoRange start (start + amps.length) amps with
      | .ok b => ⟨b, .xfer (.rAck q ow d) ts, s.cnt⟩
      | .error _ => { s with pc := .crashed }
    | _ => { s with pc := .crashed }
  | .xfer (.rAck q ow d) ts =>
    .send (some q) (.accept prm.chunk prm.inflight)
      (if d then { s with pc := nextTask ts } else { s with pc := .xfer (.rData q ow) ts })
  | .closed => .halt
  | .crashed => .halt

/-- A program of the manager for one operation: sends, receives, and the result of `send_op` (`none`: no measurement
result; `doneTop`: the `top_k` fields). -/
inductive MProg where
  | done (r : Except PyErr (Option (Nat × ℝ)))
  | doneTop (r : Except PyErr (List (Nat × ℝ × ℝ)))
  | send (w : Wid) (o : WOp) (k : MProg)
  | recv (w : Wid) (k : NMsg → MProg)

/-- `send_to_each_of`, manager.py:443-445. -/
def sendEach (o : WOp) (ws : List Wid) (k : MProg) : MProg := ws.foldr (fun w k => .send w o k) k

/-- `receive_from_each_of`, manager.py:447-455 (workers never send an error message). -/
def recvEach : List Wid → (List NMsg → MProg) → MProg
  | [], k => k []
  | w :: ws, k => .recv w fun m => recvEach ws fun ms => k (m :: ms)

/-- `map_workers_via_op`, manager.py:457-460. -/
def mapWorkers (o : WOp) (ws : List Wid) (k : List NMsg → MProg) : MProg := sendEach o ws (recvEach ws k)

/-- `send_kronprod`, manager.py:213-236. -/
def sendKronprod (mats : List (Key × Mat ℂ)) (ws : List Wid) : MProg :=
  mapWorkers (.kron mats) ws fun _ => mapWorkers (.sync 0 false) ws fun _ => .done (.ok none)

/-- `conf.measure_result.measured_prob`, 0 if not set. -/
def NMsg.prob : NMsg → ℝ
  | .result _ p => p
  | _ => 0

/-- `conf.measure_result.measured_bits`, 0 if not set. -/
def NMsg.bits : NMsg → Nat
  | .result (some m) _ => m
  | _ => 0

open Classical in
/-- The loop that selects a worker, manager.py:258-267: position of the selected one. -/
noncomputable def selectWorker : List ℝ → ℝ → Option Nat
  | [], _ => none
  | p :: ps, r => if r - p ≤ 0 then some 0 else (selectWorker ps (r - p)).map (· + 1)

/-- `sorted` diagonal workers, manager.py:249-251 (tuples of ranges, compared by the input range first; input ranges of
diagonal workers are distinct). -/
def diagWorkers (ws : List Wid) : List Wid :=
  (ws.filter fun w => w.1 = w.2).mergeSort fun a b => decide (a.1 ≤ b.1)

/-- `send_measure`, manager.py:248-306.  `r` is `random.random()`.  If no worker is selected, `selected_worker` is None
and line 272 raises AttributeError. -/
noncomputable def sendMeasure (indices : List Nat) (r : ℝ) (ws : List Wid) : MProg :=
  let diag := diagWorkers ws
  mapWorkers .totalProb diag fun confs =>
    match selectWorker (confs.map NMsg.prob) r with
    | none => .done (.error .attributeError)
    | some i =>
      let sel := diag.getD i (0, 0)
      .send sel (.soft indices none) <| .recv sel fun conf =>
        mapWorkers (.soft indices (some conf.bits)) (diag.eraseIdx i) fun confs =>
          let p := conf.prob + (confs.map NMsg.prob).sum
          mapWorkers (.measure indices (some (conf.bits, p))) diag fun _ =>
            mapWorkers (.sync 0 true) ws fun _ => .done (.ok (some (conf.bits, p)))

/-- `conf.measure_result.top_k_indices.index` and `top_k_probs`, empty if not set. -/
def NMsg.items : NMsg → Report
  | .tops r => r
  | _ => []

/-- `send_measure_top`, manager.py:308-354 (what is done with the reports is `measureTop`). -/
noncomputable def sendMeasureTop (indices : List Nat) (topK : Int) (ws : List Wid) : MProg :=
  mapWorkers (.top indices topK) (diagWorkers ws) fun confs => .doneTop (measureTop topK.toNat (confs.map NMsg.items))

/-- Local state of a process. -/
inductive NLoc where
  | mgr (p : MProg)
  | wkr (s : WSt)

/-- All processes of a job. -/
noncomputable def netAct (prm : Wid → WParam) (p : Pid) (s : NLoc) : Act Pid NMsg NLoc :=
  match p, s with
  | none, .mgr (.done _) => .halt
  | none, .mgr (.doneTop _) => .halt
  | none, .mgr (.send w o k) => .send (some w) (.op o) (.mgr k)
  | none, .mgr (.recv w k) => .recv (some w) fun m => .mgr (k m)
  | some w, .wkr s =>
    match workerAct (prm w) w s with
    | .halt => .halt
    | .send q m s' => .send q m (.wkr s')
    | .recv q k => .recv q fun m => .wkr (k m)
  | _, _ => .halt

/-- The configuration with the manager at program `p`, worker `w` in state `f w` and the given messages on the way. -/
def netCfg (p : MProg) (f : Wid → WSt) (buf : Pid × Pid → List NMsg) : Cfg Pid NMsg NLoc :=
  ⟨fun x => match x with | none => .mgr p | some w => .wkr (f w), buf⟩

end QIP
