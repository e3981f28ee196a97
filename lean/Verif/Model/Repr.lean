import Verif.Model.Print

/-!
# Names in drawings

`make_svg` and `print_circuit` find the name of a node by computing its whole `repr` and cutting it at the first
parenthesis.  The `repr` is computed as well whenever a node is hashed, that is by everything that walks through a
circuit.  The `repr` of some classes contains those of the inputs, and that of a `COp` contains that of the operation
inside it.  `frames` is the number of nested calls of `__repr__` the interpreter still allows.
-/

namespace QIP

open Heap

/-- The inputs whose `repr` is part of that of a matrix op: operators.py:45, 56, 71, 86, 101, 117, 129, 150, 229 (the
operation of a `COp` has the inputs after the control, operators.py:219). -/
def Gate.shown : Gate → List Nat → List Nat
  | .r _, ins => ins
  | .rm _ _, ins => ins
  | .c op, ins => op.shown ins.tail
  | _, _ => []

/-- The inputs whose `repr` is part of that of a node: qip.py:101, 131, 157, 184, operators.py:294. -/
def Kind.shown : Kind → List Nat → List Nat
  | .qubit, _ => []
  | .split _, ins => ins
  | .gate g _, ins => g.shown ins
  | .fop _, ins => ins.take 2
  | .measure, ins => ins
  | .smeasure _, ins => ins

/-- `",".join(l)`. -/
def commas : List String → String
  | [] => ""
  | [s] => s
  | s :: l => s ++ "," ++ commas l

/-- `repr` of a matrix op, operators.py:45, 56, 71, 86, 101, 117, 129, 150, 229, given those of the inputs it contains.
The operation of a `COp` has the same `qid` (operators.py:216). -/
def Gate.text (qid : Nat) (l : List String) : Gate → String
  | .not => "Not(" ++ toString qid ++ ")"
  | .x => "X(" ++ toString qid ++ ")"
  | .y => "Y(" ++ toString qid ++ ")"
  | .z => "Z(" ++ toString qid ++ ")"
  | .h => "H(" ++ toString qid ++ ")"
  | .r _ => "R(" ++ commas l ++ ")"
  | .rm m _ => "R[" ++ toString m ++ "](" ++ commas l ++ ")"
  | .swap _ => "Swap(" ++ toString qid ++ ")"
  | .c op => "C" ++ op.text qid l

/-- `repr` of a node, given those of the inputs it contains: qip.py:101, 131, 157, 184, operators.py:294. -/
def Kind.text (qid : Nat) (l : List String) : Kind → String
  | .qubit => "Q(" ++ toString qid ++ ")"
  | .split _ => "SplitQubit(" ++ commas l ++ ")"
  | .gate g _ => g.text qid l
  | .fop _ => "F(" ++ l.getD 0 "" ++ ", " ++ l.getD 1 "" ++ ")"
  | .measure => "M(" ++ commas l ++ ")"
  | .smeasure _ => "SM(" ++ commas l ++ ")"

/-- How many operations are nested inside a matrix op: one for every `C`. -/
def Gate.inner : Gate → Nat
  | .c op => op.inner + 1
  | _ => 0

/-- How many operations are nested inside a node. -/
def Kind.inner : Kind → Nat
  | .gate g _ => g.inner
  | _ => 0

/-- `repr(x)` where `inner` calls for the operations nested inside `x` are still to be made before those for the inputs:
`COp.__repr__` calls that of its operation (operators.py:229-230), that of the innermost calls those of the inputs.
`none` is the RecursionError. -/
def Heap.reprIn (h : Heap) : Nat → Nat → Nat → Option String
  | 0, _, _ => none
  | frames + 1, inner + 1, x => h.reprIn frames inner x
  | frames + 1, 0, x => do
    let l ← ((h.kind x).shown (h.inputs x)).mapM fun i => h.reprIn frames (h.kind i).inner i
    some ((h.kind x).text (h.qid x) l)

/-- `repr(x)`; `none` is the RecursionError. -/
def Heap.repr (h : Heap) (frames x : Nat) : Option String := h.reprIn frames (h.kind x).inner x

/-- `hash(x)` of the given nodes one after the other, pipeline.py:66-67: it computes the whole `repr`.  (All places count
the same number of nested calls, although some are a few calls deeper than others.) -/
def Heap.hashes (h : Heap) (frames : Nat) (xs : List Nat) : Except PyErr Unit :=
  if xs.all fun x => (h.repr frames x).isSome then .ok () else .error .recursionError

/-- The loop of `get_deps`, pipeline.py:153-159, as in `depsLoop`, with the hashes it computes: of the node for
`node in feed` and the sets it is added to, of its inputs for the frontier. -/
def depsLoopIn (frames : Nat) (h : Heap) (pick : List Nat → Nat) : Nat → List Nat → List Nat → List Nat →
    Except PyErr (List Nat × List Nat)
  | _, [], deps, seen => .ok (deps, seen)
  | 0, _ :: _, _, _ => .error .diverges
  | fuel + 1, f :: fs, deps, seen =>
    let frontier := f :: fs
    let i := pick frontier % frontier.length
    let node := frontier.getD i 0
    let rest := frontier.eraseIdx i
    match h.hashes frames (node :: h.inputs node) with
    | .error e => .error e
    | .ok _ =>
      if h.inputs node = [] then depsLoopIn frames h pick fuel rest (setAdd deps node) (setAdd seen node)
      else depsLoopIn frames h pick fuel ((h.inputs node).foldl setAdd rest) deps (setAdd seen node)

/-- `get_deps`, pipeline.py:138-160, with the hashes it computes: `set(args)` first. -/
def getDepsIn (frames : Nat) (h : Heap) (pick : List Nat → Nat) (args : List Nat) : Except PyErr (List Nat × List Nat) := do
  h.hashes frames args
  depsLoopIn frames h pick (2 ^ h.nodes.length) (args.foldl setAdd []) [] []

/-- What `run_graph` does with a node, pipeline.py:205-215: after it has been fed, its sinks – also those the outputs do
not need – are looked up in `graphnodes`. -/
def hashing {σ : Type} (frames : Nat) (h : Heap) (feed : σ → List (List Nat) → List Nat → Nat → Except PyErr σ) (acc : σ)
    (gs : List (List Nat)) (own : List Nat) (x : Nat) : Except PyErr σ := do
  let acc ← feed acc gs own x
  h.hashes frames (h.sinks x)
  .ok acc

/-- `trim_op_name`, svgwriter.py:27-32, and pipeline.py:264-267, from the `repr`: cut at the first parenthesis, unless
there is none or it is the first character. -/
def trimName (s : String) : String :=
  let pos := s.toList.findIdx (· == '(')
  if pos < s.toList.length ∧ 0 < pos then String.ofList (s.toList.take pos) else s

/-- `SvgFeeder.feed`, svgwriter.py:111-127. -/
def svgFeedIn (frames : Nat) (lay : Layout) (h : Heap) (st : SvgState) (_gs : List (List Nat)) (own : List Nat) (x : Nat) :
    Except PyErr SvgState :=
  match h.repr frames x with
  | none => .error .recursionError
  | some s => svgFeedNamed lay (trimName s) (h.kind x) st own

/-- `make_svg`, svgwriter.py:155-165, called where `frames` nested calls are allowed. -/
def makeSvgIn (frames : Nat) (h : Heap) (args : List Nat) (pick : List Nat → Nat) (shuffle : List Nat → List Nat) :
    Except PyErr Svg := do
  let (deps, graphnodes) ← getDepsIn frames h pick args
  let frontier := sortQid h (shuffle deps)
  let st ← runGraph h frontier graphnodes (hashing frames h (svgFeedIn frames {} h)) ⟨[], 0, []⟩
  .ok (svgText {} (frontier.map h.n).sum st).1

/-- `PrintFeeder.feed`, pipeline.py:261-302. -/
def printRowsIn (frames w n : Nat) (h : Heap) (gs : List (List Nat)) (x : Nat) : Except PyErr (List (List String)) :=
  let indices := gs.flatten
  if indices.length > 0 then
    match h.repr frames x with
    | none => .error .recursionError
    | some s => .ok (printNamed w n (trimName s) indices)
  else .ok []

/-- `print_circuit`, pipeline.py:305-310, called where `frames` nested calls are allowed: the lines written, if it ends
normally. -/
def printCircuitIn (frames w : Nat) (h : Heap) (args : List Nat) (pick : List Nat → Nat) (shuffle : List Nat → List Nat) :
    Except PyErr (List (List String)) := do
  let (deps, graphnodes) ← getDepsIn frames h pick args
  let frontier := sortQid h (shuffle deps)
  let n := (frontier.map h.n).sum
  runGraph h frontier graphnodes (hashing frames h fun out gs _ x => do
    let rows ← printRowsIn frames w n h gs x
    .ok (out ++ rows)) []

end QIP
