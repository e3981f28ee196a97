import Verif.Model.FCircuit
import Verif.Model.FDistCircuit
import Verif.Model.Worker

/-!
# Workers and manager as processes, with rounded amplitudes

The processes of `Model/Worker` once more, for kron products, measurements and synchronisations only, on amplitudes and probabilities
in rounded arithmetic (`Model/Float`, `Model/FMeasure`).  Grid, job ids and ranges as there.
-/

namespace QIP.FNet

open QIP

variable {A : Arith}

/-- `WorkerOperation`, messages.proto:139-149: kron products, the steps of a measurement (outcome, and probability, if present),
synchronisations, closing. -/
inductive WOp (A : Arith) where
  | kron (mats : List (Key × Mat (FC A)))
  | totalProb
  | soft (indices : List Nat) (measured : Option Nat)
  | measure (indices : List Nat) (m : Nat) (p : ℝ)
  | sync (upTo : Nat) (diagOverwrite : Bool)
  | close

/-- The messages: operations, `WorkerConfirm` without and with a measurement result (bits, probability), `SyncAccept` and `SyncState`;
amplitudes and probabilities travel as doubles (messages.proto:4-8), so they arrive unchanged. -/
inductive NMsg (A : Arith) where
  | op (o : WOp A)
  | conf
  | result (bits : Option Nat) (prob : ℝ)
  | accept (chunkSize maxInflight : Nat)
  | data (start : Nat) (amps : List (FC A)) (done : Bool)

/-- Where a worker is. -/
inductive Pc (A : Arith) where
  /-- waiting for an operation, worker.py:60 -/
  | idle
  /-- about to report to the manager -/
  | reply (m : NMsg A)
  /-- in a synchronisation, with the transfers to do afterwards -/
  | xfer (cur : Cur) (todo : List Task)
  /-- left the loop (close) -/
  | closed
  /-- died with an exception -/
  | crashed

/-- State of a worker: its backend, and how many operations it has received. -/
structure WSt (A : Arith) where
  b : FState A
  pc : Pc A
  cnt : Nat

/-- What a worker's behaviour depends on besides its state: the size of ranges, the connections that have arrived at
its server thread, in this order (only diagonal workers receive connections), the arguments of `receive_state`, and
for every operation the thread schedule of the kernel, the order of its sums (`Arith.dot`) and the random draw; and the arithmetic of
its measurements. -/
structure WParam where
  size : Nat
  regs : List Wid
  chunk : Nat
  inflight : Nat
  sched : Nat → List Nat
  run : Nat → Nat
  draw : Nat → ℝ
  ops : FOps

/-- After a transfer: the next one, or report. -/
def nextTask : List Task → Pc A
  | [] => .reply .conf
  | .sendTo q :: ts => .xfer (.sAccept q) ts
  | .recvFrom q ow :: ts => .xfer (.rAccept q ow) ts

/-- The transfers of a synchronisation, worker.py:119-159 (see `QIP.syncTasks`). -/
def syncTasks (prm : WParam) (w : Wid) (upTo : Nat) (diagOverwrite : Bool) : List Task :=
  if w.1 = w.2 then
    (if diagOverwrite then [] else (prm.regs.filter fun r => r.2 = w.2).map fun r => .recvFrom r false) ++
    (if upTo ≠ 0 then ((prm.regs.filter fun r => r.1 = w.1).filter fun r => r.2 * prm.size < upTo).map .sendTo
      else (prm.regs.filter fun r => r.1 = w.1).map .sendTo)
  else
    (if diagOverwrite then [] else [.sendTo (w.2, w.2)]) ++
    (if upTo ≠ 0 ∧ ¬ (upTo ≥ (w.1 + 1) * prm.size ∧ upTo ≥ (w.2 + 1) * prm.size) then []
      else [.recvFrom (w.1, w.1) true])

/-- `CythonBackend.get_relative_range`, qip/backend.py:168-169 (`state[start:end]`, indices clipped). -/
def getRange (b : FState A) (start stop : Nat) : List (FC A) := (b.state.take stop).drop start

/-- numpy's broadcasting of one-dimensional data to `len` entries: data of one entry is repeated. -/
def broadcast (len : Nat) : List (FC A) → List (FC A)
  | [x] => List.replicate len x
  | data => data

/-- `CythonBackend.overwrite_relative_range`, qip/backend.py:171-172: numpy slice assignment (data that does not fit raises
ValueError). -/
noncomputable def overwriteRange (b : FState A) (start stop : Nat) (data : List (FC A)) : Except PyErr (FState A) :=
  let d := broadcast (getRange b start stop).length data
  if (getRange b start stop).length = d.length then
    .ok { b with state := b.state.take start ++ d ++ b.state.drop (start + d.length) }
  else .error .valueError

/-- `CythonBackend.addto_relative_range`, qip/backend.py:174-175: every sum is rounded. -/
noncomputable def addtoRange (b : FState A) (start stop : Nat) (data : List (FC A)) : Except PyErr (FState A) :=
  let d := broadcast (getRange b start stop).length data
  if (getRange b start stop).length = d.length then
    .ok { b with state := b.state.take start ++ List.zipWith (· + ·) (getRange b start stop) d
      ++ b.state.drop (start + d.length) }
  else .error .valueError

/-- One operation, worker.py:64-162 (kronprod: 69-75 with `CythonBackend.kronselect_dot`, qip/backend.py:112-116; measurements: 77-117
with `CythonBackend.total_prob`, `soft_measure` and `measure`, qip/backend.py:123-134, 153-156): new backend, and what to do next.  The
accumulator of `prob_magnitude` starts at 0 (kronprod.pyx:322 leaves it uninitialised, C27). -/
noncomputable def handleOp (prm : WParam) (w : Wid) (s : WSt A) : WOp A → FState A × Pc A
  | .kron mats =>
    match kronselectDotF (prm.run s.cnt) mats s.b.state s.b.n s.b.arena (w.1 * prm.size) (w.2 * prm.size) (prm.sched s.cnt) with
    | .ok out => ({ s.b with state := out, arena := s.b.state }, .reply .conf)
    | .error _ => (s.b, .crashed)
  | .totalProb => (s.b, .reply (.result none (probMagnitudeF prm.ops 0 (s.b.state.map FC.val))))
  | .soft indices measured =>
    match softMeasureF prm.ops indices s.b.n (s.b.state.map FC.val) measured (w.1 * prm.size) (prm.draw s.cnt) 0 with
    | .ok (m, p) => (s.b, .reply (.result (some m) p))
    | .error _ => (s.b, .crashed)
  | .measure indices m p =>
    match measureF prm.ops indices s.b.n (s.b.state.map FC.val) (s.b.arena.map FC.val) (w.1 * prm.size) (w.2 * prm.size)
        (some (m : Int)) (some p) (prm.draw s.cnt) 0 with
    | .ok (m, p, out) => ({ s.b with state := out.map FC.mk, arena := s.b.state }, .reply (.result (some m) p))
    | .error _ => (s.b, .crashed)
  | .sync upTo d => (s.b, nextTask (syncTasks prm w upTo d))
  | .close => (s.b, .closed)

/-- The worker's next communication: the loop of `WorkerInstance.run` (57-166), `send_state` (302-329) and
`receive_state` (332-357).  A message of the wrong kind makes the worker die. -/
noncomputable def workerAct (prm : WParam) (w : Wid) (s : WSt A) : Act Pid (NMsg A) (WSt A) :=
  match s.pc with
  | .idle => .recv none fun m =>
    match m with
    | .op o => let (b, pc) := handleOp prm w s o; ⟨b, pc, s.cnt + 1⟩
    | _ => { s with pc := .crashed }
  | .reply m => .send none m { s with pc := .idle }
  | .xfer (.sAccept q) ts => .recv (some q) fun m =>
    match m with
    | .accept ch mx =>
      if 0 < s.b.state.length then { s with pc := .xfer (.sLoop q 0 0 ch mx) ts } else { s with pc := nextTask ts }
    | _ => { s with pc := .crashed }
  | .xfer (.sLoop q last infl ch mx) ts =>
    if infl < mx ∧ last < s.b.state.length then
      let stop := last + min (s.b.state.length - last) ch
      .send (some q) (.data last (getRange s.b last stop) (decide (stop = s.b.state.length)))
        { s with pc := .xfer (.sLoop q stop (infl + 1) ch mx) ts }
    else .recv (some q) fun m =>
      match m with
      | .accept ch' mx' =>
        if last < s.b.state.length then { s with pc := .xfer (.sLoop q last (infl - 1) ch' mx') ts }
        else { s with pc := nextTask ts }
      | _ => { s with pc := .crashed }
  | .xfer (.rAccept q ow) ts =>
    .send (some q) (.accept prm.chunk prm.inflight) { s with pc := .xfer (.rData q ow) ts }
  | .xfer (.rData q ow) ts => .recv (some q) fun m =>
    match m with
    | .data start amps d =>
      match if ow then overwriteRange s.b start (start + amps.length) amps
        else addtoRange s.b start (start + amps.length) amps with
      | .ok b => ⟨b, .xfer (.rAck q ow d) ts, s.cnt⟩
      | .error _ => { s with pc := .crashed }
    | _ => { s with pc := .crashed }
  | .xfer (.rAck q ow d) ts =>
    .send (some q) (.accept prm.chunk prm.inflight)
      (if d then { s with pc := nextTask ts } else { s with pc := .xfer (.rData q ow) ts })
  | .closed => .halt
  | .crashed => .halt

/-- A program of the manager: sends, receives, and the end of the job with the outcomes of the measurements (and the exception that
has ended it, if any). -/
inductive MProg (A : Arith) where
  | done (outs : List Nat) (err : Option PyErr)
  | send (w : Wid) (o : WOp A) (k : MProg A)
  | recv (w : Wid) (k : NMsg A → MProg A)

/-- `send_to_each_of`, manager.py:443-445. -/
def sendEach (o : WOp A) (ws : List Wid) (k : MProg A) : MProg A := ws.foldr (fun w k => .send w o k) k

/-- `receive_from_each_of`, manager.py:447-455 (workers never send an error message). -/
def recvEach : List Wid → (List (NMsg A) → MProg A) → MProg A
  | [], k => k []
  | w :: ws, k => .recv w fun m => recvEach ws fun ms => k (m :: ms)

/-- `map_workers_via_op`, manager.py:457-460. -/
def mapWorkers (o : WOp A) (ws : List Wid) (k : List (NMsg A) → MProg A) : MProg A := sendEach o ws (recvEach ws k)

/-- `conf.measure_result.measured_prob`, 0 if not set. -/
def NMsg.prob : NMsg A → ℝ
  | .result _ p => p
  | _ => 0

/-- `conf.measure_result.measured_bits`, 0 if not set. -/
def NMsg.bits : NMsg A → Nat
  | .result (some m) _ => m
  | _ => 0

/-- `send_kronprod`, manager.py:213-236. -/
def sendKronprod (mats : List (Key × Mat (FC A))) (ws : List Wid) (k : MProg A) : MProg A :=
  mapWorkers (.kron mats) ws fun _ => mapWorkers (.sync 0 false) ws fun _ => k

/-- `send_measure`, manager.py:248-306.  `r` is `random.random()`; `F` is the arithmetic of the manager.  If no worker is selected,
`selected_worker` is None and line 272 raises AttributeError: the job ends with the outcomes `outs` of the earlier measurements
(what `serve_client` then does, 83-92, is not modelled here). -/
noncomputable def sendMeasure (F : FOps) (indices : List Nat) (r : ℝ) (ws : List Wid) (outs : List Nat) (k : Nat → MProg A) : MProg A :=
  let diag := diagWorkers ws
  mapWorkers .totalProb diag fun confs =>
    match selectWorkerF F (confs.map NMsg.prob) r with
    | none => .done outs (some .attributeError)
    | some i =>
      let sel := diag.getD i (0, 0)
      .send sel (.soft indices none) <| .recv sel fun rep =>
        mapWorkers (.soft indices (some rep.bits)) (diag.eraseIdx i) fun confs =>
          mapWorkers (.measure indices rep.bits (F.add rep.prob (F.acc 0 (confs.map NMsg.prob)))) diag fun _ =>
            mapWorkers (.sync 0 true) ws fun _ => k rep.bits

/-- A request of the client. -/
inductive Req (A : Arith) where
  | kron (mats : List (Key × Mat (FC A)))
  | measure (indices : List Nat)

/-- The requests of the client one after the other (`serve_client`, manager.py:46-66, and `send_op`, 197-211, without the replies to the
client).  Every measurement takes the next random number of the manager; `outs` are the outcomes so far. -/
noncomputable def jobOps (F : FOps) (ws : List Wid) : List (Req A) → List ℝ → List Nat → MProg A
  | [], _, outs => .done outs none
  | .kron mats :: reqs, rs, outs => sendKronprod mats ws (jobOps F ws reqs rs outs)
  | .measure indices :: reqs, rs, outs => sendMeasure F indices (rs.headD 0) ws outs fun m => jobOps F ws reqs rs.tail (outs ++ [m])

/-- Local state of a process. -/
inductive NLoc (A : Arith) where
  | mgr (p : MProg A)
  | wkr (s : WSt A)

/-- All processes of a job. -/
noncomputable def netAct (prm : Wid → WParam) (p : Pid) (s : NLoc A) : Act Pid (NMsg A) (NLoc A) :=
  match p, s with
  | none, .mgr (.done _ _) => .halt
  | none, .mgr (.send w o k) => .send (some w) (.op o) (.mgr k)
  | none, .mgr (.recv w k) => .recv (some w) fun m => .mgr (k m)
  | some w, .wkr s =>
    match workerAct (prm w) w s with
    | .halt => .halt
    | .send q m s' => .send q m (.wkr s')
    | .recv q k => .recv q fun m => .wkr (k m)
  | _, _ => .halt

/-- The configuration with the manager at program `p`, worker `w` in state `f w` and the given messages on the way. -/
def netCfg (p : MProg A) (f : Wid → WSt A) (buf : Pid × Pid → List (NMsg A)) : Cfg Pid (NMsg A) (NLoc A) :=
  ⟨fun x => match x with | none => .mgr p | some w => .wkr (f w), buf⟩

theorem broadcast_same {len : Nat} {data : List (FC A)} (h : len = data.length) : broadcast len data = data := by
  unfold broadcast
  split
  · subst h; rfl
  · rfl

end QIP.FNet
