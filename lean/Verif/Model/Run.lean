import Verif.Model.Graph

/-!
# Running circuits (`qip/pipeline.py`)
-/

namespace QIP

/-- Adding to a Python set (the order of the list has no meaning). -/
def setAdd (s : List Nat) (x : Nat) : List Nat := if x ∈ s then s else s ++ [x]

/-- The loop of `get_deps`, pipeline.py:153-159.  `pick` decides which element `set.pop` returns.  `node in feed` is
never true: `feed` is empty or its keys are tuples (pipeline.py:90). -/
def depsLoop (h : Heap) (pick : List Nat → Nat) : Nat → List Nat → List Nat → List Nat →
    Except PyErr (List Nat × List Nat)
  | _, [], deps, seen => .ok (deps, seen)
  | 0, _ :: _, _, _ => .error .diverges
  | fuel + 1, f :: fs, deps, seen =>
    let frontier := f :: fs
    let i := pick frontier % frontier.length
    let node := frontier.getD i 0
    let rest := frontier.eraseIdx i
    if h.inputs node = [] then depsLoop h pick fuel rest (setAdd deps node) (setAdd seen node)
    else depsLoop h pick fuel ((h.inputs node).foldl setAdd rest) deps (setAdd seen node)

/-- `get_deps`, pipeline.py:138-160: the input nodes and all nodes. -/
def getDeps (h : Heap) (pick : List Nat → Nat) (args : List Nat) : Except PyErr (List Nat × List Nat) :=
  depsLoop h pick (2 ^ h.nodes.length) (args.foldl setAdd []) [] []

/-- `sorted(..., key=lambda q: q.qid)`: stable. -/
def sortQid (h : Heap) (xs : List Nat) : List Nat := xs.mergeSort fun a b => decide (h.qid a ≤ h.qid b)

/-- `qbitindex`, a dict. -/
abbrev IndexMap := Nat → Option (List Nat)

/-- Index blocks of the input qubits, pipeline.py:118-122 and 195-200. -/
def blocks (h : Heap) : List Nat → Nat → IndexMap
  | [], _ => fun _ => none
  | q :: qs, n => fun x => if x = q then some ((List.range (h.n q)).map (n + ·)) else blocks h qs (n + h.n q) x

/-- `qbitindex[x]`. -/
def lookup (m : IndexMap) (x : Nat) : Except PyErr (List Nat) :=
  match m x with
  | some v => .ok v
  | none => .error .keyError

/-- `indices[i]` on a list, negative indices count from the end. -/
def pyGet (l : List Nat) (i : Int) : Except PyErr Nat :=
  let j := if i < 0 then i + l.length else i
  if j < 0 then .error .indexError
  else match l[j.toNat]? with
    | some v => .ok v
    | none => .error .indexError

/-- `select_index`, pipeline.py:44-50 and qip.py:128-129. -/
def selectIndex : Kind → List Nat → Except PyErr (List Nat)
  | .split is, l => is.mapM (pyGet l)
  | _, l => .ok l

/-- Local variables of `run_graph`; `acc` is the accumulator object. -/
structure RunState (σ : Type) where
  frontier : List Nat
  index : IndexMap
  seen : List Nat
  acc : σ

/-- Loop body for one sink, pipeline.py:213-222. -/
def sinkStep {σ : Type} (h : Heap) (graphnodes : List Nat) (st : RunState σ) (next : Nat) : Except PyErr (RunState σ) :=
  if next ∈ graphnodes ∧ next ∉ st.seen ∧ next ∉ st.frontier ∧ ∀ p ∈ h.inputs next, p ∈ st.seen then do
    let gs ← (h.inputs next).mapM (lookup st.index)
    let ix ← selectIndex (h.kind next) gs.flatten
    .ok { st with
      frontier := st.frontier ++ [next]
      index := fun x => if x = next then some ix else st.index x }
  else .ok st

/-- The loop of `run_graph`, pipeline.py:202-222.  An accumulator's `feed` gets the index groups of the node's inputs,
the node's own indices (all that the accumulators look up in `qbitindex`) and the node.  `remap_index` is the identity
for every class. -/
def graphLoop {σ : Type} (h : Heap) (graphnodes : List Nat)
    (feed : σ → List (List Nat) → List Nat → Nat → Except PyErr σ) : Nat → RunState σ → Except PyErr σ
  | fuel, st =>
    match sortQid h st.frontier with
    | [] => .ok st.acc
    | node :: rest =>
      match fuel with
      | 0 => .error .diverges
      | fuel + 1 => do
        let gs ← (h.inputs node).mapM (lookup st.index)
        let own ← lookup st.index node
        let acc ← feed st.acc gs own node
        let st' ← (h.sinks node).foldlM (sinkStep h graphnodes)
          { frontier := rest, index := st.index, seen := st.seen ++ [node], acc := acc }
        graphLoop h graphnodes feed fuel st'

/-- `run_graph`, pipeline.py:186-222. -/
def runGraph {σ : Type} (h : Heap) (frontier graphnodes : List Nat)
    (feed : σ → List (List Nat) → List Nat → Nat → Except PyErr σ) (acc : σ) : Except PyErr σ :=
  graphLoop h graphnodes feed graphnodes.length
    { frontier := frontier, index := blocks h (sortQid h frontier) 0, seen := [], acc := acc }

/-- Everything that is not determined by the program while one node is fed: thread schedules, memory behind a buffer,
the random draw and an uninitialised accumulator. -/
structure Oracle where
  sched : List Nat
  faOrder : List (Nat × Nat × Nat)
  faGarb : Nat → Nat
  u : ℝ
  garbage : ℝ

/-- Value stored in the dictionary returned by `run`. -/
inductive Classic where
  | zero
  | bits (m : Nat) (p : ℝ)
  | probs (ps : List ℝ)
  | top (ms : List Nat) (ps : List ℝ)

/-- The cached matrices `ms` of all nodes (operators.py:12, 17-23). -/
abbrev MsTable := Nat → Option (List (Key × Mat ℂ))

/-- `NodeFeeder` (pipeline.py:225-240) with the part of the node objects it changes. -/
structure Feeder where
  state : BState
  ms : MsTable
  classic : List (Nat × Classic)

/-- `MatrixOp.feed_indices`, operators.py:15-26: the matrices are computed at the first call only. -/
noncomputable def opMats (ms : Option (List (Key × Mat ℂ))) (g : Gate) (dagger : Bool) (gs : List (List Nat)) :
    Except PyErr (List (Key × Mat ℂ)) :=
  match ms with
  | some m => .ok m
  | none => g.feedMats dagger gs

/-- `NodeFeeder.feed`, pipeline.py:235-240, and the `feed_indices` of each class (pipeline.py:31-42, qip.py:148-155 and
177-182, operators.py:15-26 and 287-292).  No class removes qubits.  After an exception nothing is recorded about the
cached matrices here (`Model/Retry.lean` does). -/
noncomputable def nodeFeed (h : Heap) (orc : Nat → Oracle) (st : Feeder) (gs : List (List Nat)) (_own : List Nat)
    (x : Nat) : Except PyErr Feeder :=
  match h.kind x with
  | .qubit => .ok { st with classic := st.classic ++ [(x, .zero)] }
  | .split _ => .ok { st with classic := st.classic ++ [(x, .zero)] }
  | .gate g dagger => do
    let m ← opMats (st.ms x) g dagger gs
    let (r, b) := st.state.kronselectDot m 0 0 (orc x).sched
    let _ ← r
    .ok ⟨b, fun y => if y = x then some m else st.ms y, st.classic ++ [(x, .zero)]⟩
  | .fop f => do
    let out ← backendFuncApply (gs.getD 0 []) (gs.getD 1 []) f st.state.n st.state.state st.state.arena
      (orc x).faOrder (orc x).faGarb
    .ok ⟨⟨st.state.n, out, st.state.state⟩, st.ms, st.classic ++ [(x, .zero)]⟩
  | .measure => do
    let (r, b) := st.state.measure gs.flatten none none 0 0 (orc x).u (orc x).garbage
    let (m, p) ← r
    .ok ⟨b, st.ms, st.classic ++ [(x, .bits m p)]⟩
  | .smeasure topK => do
    let r ← st.state.measureProbabilities gs.flatten topK
    .ok { st with classic := st.classic ++ [(x, match r with | .inl ps => .probs ps | .inr (ms, ps) => .top ms ps)] }

/-- Entry added to `feed` for an unfed input qubit, pipeline.py:101-109. -/
noncomputable def defaultFeed (h : Heap) (fed : List Nat) (q : Nat) : List (List Nat × InitState) :=
  if q ∈ fed then []
  else match h.default q with
    | none => []
    | some (.int k) =>
      if 0 < k ∧ k < 2 ^ h.n q then [([q], .vec ((List.replicate (2 ^ h.n q) 0).set k.toNat 1))] else []
    | some (.list l) => [([q], .vec l)]
    | some (.array l) => [([q], .vec l)]

/-- The deprecated `state` keyword of `run`: a Python list (or tuple), a numpy array (what `run` itself returns), or an
int. -/
inductive StateKw where
  | list (amps : List ℂ)
  | array (amps : List ℂ)
  | int (k : Int)

/-- `if 'state' in kwargs and kwargs['state']`, pipeline.py:129-131: used if truthy.  A list is truthy if non-empty, an
int if not 0, a numpy array of one element if the element is not 0; the truth value of a longer array is a ValueError (an
empty array is taken as false). -/
noncomputable def stateArg (s : Option StateKw) : Except PyErr (Option InitState) :=
  match s with
  | none => .ok none
  | some (.list l) => .ok (if l = [] then none else some (.vec l))
  | some (.array []) => .ok none
  | some (.array [x]) => .ok (if x = 0 then none else some (.vec [x]))
  | some (.array (_ :: _ :: _)) => .error .valueError
  | some (.int k) => .ok (if k = 0 then none else some (.int k))

/-- `run`, pipeline.py:71-135, with the local backend.  `feed` is the dictionary after line 90 (keys are tuples).
`shuffle` is the order in which `list(deps)` lists a set, `arena` the uninitialised second buffer.  Result: final
state, dictionary, and the cached matrices afterwards. -/
noncomputable def run (h : Heap) (ms : MsTable) (args : List Nat) (feed : List (List Nat × InitState)) (strict : Bool)
    (state : Option StateKw) (pick : List Nat → Nat) (shuffle : List Nat → List Nat) (orc : Nat → Oracle)
    (arena : List ℂ) : Except PyErr (List ℂ × List (Nat × Classic) × MsTable) := do
  let fed := (feed.map (·.1)).flatten
  let (deps, graphnodes) ← getDeps h pick args
  let deps := shuffle deps
  let feed := feed ++ deps.flatMap (defaultFeed h fed)
  let frontier := sortQid h deps
  if strict ∧ ∃ q ∈ frontier, q ∉ fed then .error .valueError
  let index := blocks h frontier 0
  let n := (frontier.map h.n).sum
  let groups ← feed.mapM fun f => do
    let gs ← f.1.mapM (lookup index)
    pure gs.flatten
  let states := feed.map (·.2)
  let arg ← stateArg state
  let (groups, states) := match arg with
    | some s => ([List.range n], [s])
    | none => (groups, states)
  let b ← makeState n groups states 0 (2 ^ n) arena
  let acc ← runGraph h frontier graphnodes (nodeFeed h orc) ⟨b, ms, []⟩
  .ok (acc.state.state, acc.classic, acc.ms)

/-- The part of the environment that differs between two calls of `run`. -/
structure Env where
  pick : List Nat → Nat
  shuffle : List Nat → List Nat
  orc : Nat → Oracle
  arena : List ℂ

/-- `make_circuit_mat`, pipeline.py:163-178; column-wise result.  `env i` is the environment of the `i`-th run.
(The length of the state is `2 ** n`, so `n` is its binary logarithm.) -/
noncomputable def makeCircuitMat (h : Heap) (ms : MsTable) (args : List Nat) (env : Nat → Env) :
    Except PyErr (List (List ℂ)) := do
  let (o, _, ms) ← run h ms args [] false none (env 0).pick (env 0).shuffle (env 0).orc (env 0).arena
  let n := Nat.log 2 o.length
  let (cols, _) ← (List.range' 1 (2 ^ n - 1)).foldlM (fun (st : List (List ℂ) × MsTable) (i : Nat) => do
    let (o, _, ms) ← run h st.2 args [] false (some (.int i)) (env i).pick (env i).shuffle (env i).orc (env i).arena
    pure (st.1 ++ [o], ms)) ([o], ms)
  pure cols

end QIP
