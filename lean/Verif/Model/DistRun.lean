import Verif.Model.Run
import Verif.Model.Job

/-!
# Running circuits on the distributed backend (`qip/pipeline.py` with `qip/distributed/backend.py`)

`run(..., backend_constructor=DistributedBackend.make_state)`, seen from the client: the requests it sends and what it makes
of the replies.  What the manager and the workers do is in `Model/Job`, `Model/Net` and `Model/Worker`.
-/

namespace QIP

/-- A request sent after the setup: kron products and measurements (see `Model/Job`), or a distribution. -/
inductive DReq where
  | op (o : JobOp)
  | probs (indices : List Nat) (topK : Int)

/-- `WorkerConfirm`, as the client reads it (backend.py:65-72, 87-92, 124-129). -/
inductive Reply where
  | confirm
  | measured (m : Nat) (p : ℝ)
  | top (ms : List Nat) (ps : List ℝ)
  | failed

/-- `NodeFeeder` (pipeline.py:225-240) with a `DistributedBackend` as state: the requests sent so far and the replies that
will come. -/
structure DFeeder where
  ms : MsTable
  classic : List (Nat × Classic)
  sent : List DReq
  replies : List Reply

/-- Send a request and wait for the reply; an error message becomes an exception (backend.py:64-69, 86-90, 123-127).
Without a reply `recv` waits forever. -/
def ask (st : DFeeder) (req : DReq) : Except PyErr (Reply × DFeeder) :=
  match st.replies with
  | [] => .error .diverges
  | .failed :: _ => .error .exception
  | r :: rest => .ok (r, { st with sent := st.sent ++ [req], replies := rest })

/-- `NodeFeeder.feed`, pipeline.py:235-240, and the `feed_indices` of each class, with the methods of `DistributedBackend`:
`kronselect_dot` (backend.py:56-72), `func_apply` (74-76: `NotImplemented` is not callable), `measure` (78-92) and
`measure_probabilities` (114-129).  A reply of another kind than asked for is not modelled. -/
noncomputable def distFeed (h : Heap) (st : DFeeder) (gs : List (List Nat)) (_own : List Nat) (x : Nat) :
    Except PyErr DFeeder :=
  match h.kind x with
  | .qubit => .ok { st with classic := st.classic ++ [(x, .zero)] }
  | .split _ => .ok { st with classic := st.classic ++ [(x, .zero)] }
  | .gate g dagger => do
    let m ← opMats (st.ms x) g dagger gs
    let _ ← matsToPb m
    let (_, st) ← ask st (.op (.kron m))
    .ok { st with ms := fun y => if y = x then some m else st.ms y, classic := st.classic ++ [(x, .zero)] }
  | .fop _ => .error .typeError
  | .measure => do
    let _ ← indicesToPb (.tup gs.flatten)
    let (r, st) ← ask st (.op (.measure gs.flatten none))
    match r with
    | .measured m p => .ok { st with classic := st.classic ++ [(x, .bits m p)] }
    | _ => .error .diverges
  | .smeasure topK => do
    let _ ← indicesToPb (.tup gs.flatten)
    let (r, st) ← ask st (.probs gs.flatten topK)
    match r with
    | .top ms ps => .ok { st with classic := st.classic ++ [(x, .top ms ps)] }
    | _ => .error .diverges

/-- What `run` returns, and what it has sent. -/
structure DistResult where
  handle : String
  classic : List (Nat × Classic)
  ms : MsTable
  n : Nat
  setup : List PbState
  sent : List DReq

/-- `run`, pipeline.py:71-135, with `backend_constructor=DistributedBackend.make_state` (backend.py:31-54).  `handle` is the
reply to the setup message (`none`: an error message), `replies` the later replies.  `get_state` returns the handle
(backend.py:53, qip/backend.py:19-20); the job is not closed. -/
noncomputable def distRun (h : Heap) (ms : MsTable) (args : List Nat) (feed : List (List Nat × InitState)) (strict : Bool)
    (state : Option StateKw) (pick : List Nat → Nat) (shuffle : List Nat → List Nat) (handle : Option String)
    (replies : List Reply) : Except PyErr DistResult := do
  let fed := (feed.map (·.1)).flatten
  let (deps, graphnodes) ← getDeps h pick args
  let deps := shuffle deps
  let feed := feed ++ deps.flatMap (defaultFeed h fed)
  let frontier := sortQid h deps
  if strict ∧ ∃ q ∈ frontier, q ∉ fed then .error .valueError
  let index := blocks h frontier 0
  let n := (frontier.map h.n).sum
  let groups ← feed.mapM fun f => do
    let gs ← f.1.mapM (lookup index)
    pure gs.flatten
  let states := feed.map (·.2)
  let arg ← stateArg state
  let (groups, states) := match arg with
    | some s => ([List.range n], [s])
    | none => (groups, states)
  let setup ← setupStates n groups states
  match handle with
  | none => .error .exception
  | some hd =>
    let acc ← runGraph h frontier graphnodes (distFeed h) ⟨ms, [], [], replies⟩
    .ok ⟨hd, acc.classic, acc.ms, n, setup, acc.sent⟩

end QIP
