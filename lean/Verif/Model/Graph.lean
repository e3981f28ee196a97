import Verif.Model.Backend

/-!
# Circuit construction (`qip/qip.py`, constructors of `qip/operators.py`)

Python objects are positions in a heap; the references the user holds are such positions.  `QID` is the class counter
`Qubit.QID`.  The keywords `qid` and `nosink` ("for internal use") are used exactly where the library uses them.
-/

namespace QIP

/-- The `default` argument of `Qubit`: a Python list, another sequence (numpy array, tuple), or an int. -/
inductive Default where
  | list (amps : List ℂ)
  | array (amps : List ℂ)
  | int (k : Int)

/-- The class of a graph node with its own data: `Qubit` (qip.py:8), `SplitQubit` (qip.py:123), `MatrixOp` subclasses
(operators.py), `FOp` (operators.py:271), `Measure` (qip.py:135), `StochasticMeasure` (qip.py:161). -/
inductive Kind where
  | qubit
  | split (indices : List Int)
  | gate (g : Gate) (dagger : Bool)
  | fop (f : Nat → Except PyErr Int)
  | measure
  | smeasure (topK : Int)

/-- Attributes of a `PipelineObject`/`Qubit` (pipeline.py:8-14, qip.py:15-42). -/
structure Node where
  kind : Kind
  n : Nat
  qid : Nat
  inputs : List Nat
  default : Option Default
  sinks : List Nat

/-- All node objects created so far and `Qubit.QID`. -/
structure Heap where
  nodes : List Node
  nextQid : Nat

namespace Heap

/-- The object behind a reference (references are always valid; the default is never used). -/
def node (h : Heap) (x : Nat) : Node := h.nodes.getD x ⟨.qubit, 0, 0, [], none, []⟩

def kind (h : Heap) (x : Nat) : Kind := (h.node x).kind
def n (h : Heap) (x : Nat) : Nat := (h.node x).n
def qid (h : Heap) (x : Nat) : Nat := (h.node x).qid
def inputs (h : Heap) (x : Nat) : List Nat := (h.node x).inputs
def sinks (h : Heap) (x : Nat) : List Nat := (h.node x).sinks
def default (h : Heap) (x : Nat) : Option Default := (h.node x).default

/-- No objects yet. -/
def empty : Heap := ⟨[], 0⟩

/-- `self.sink += [sink]`. -/
def addSink (h : Heap) (item sink : Nat) : Heap :=
  { h with nodes := h.nodes.modify item fun nd => { nd with sinks := nd.sinks ++ [sink] } }

/-- `item.set_sink(sink)`, qip.py:91-99: the no-cloning test is made only if `type(sink) == Qubit`. -/
def setSink (h : Heap) (item sink : Nat) : Except PyErr Heap :=
  match h.kind sink with
  | .qubit =>
    match h.sinks item with
    | [] => .ok (h.addSink item sink)
    | s :: _ => if h.qid s = h.qid sink then .ok (h.addSink item sink) else .error .exception
  | _ => .ok (h.addSink item sink)

/-- `for item in inputs: item.set_sink(self)`, qip.py:41-42: sinks registered before an exception stay. -/
def registerSinks (h : Heap) (sink : Nat) : List Nat → Except PyErr Unit × Heap
  | [] => (.ok (), h)
  | item :: rest =>
    match h.setSink item sink with
    | .error e => (.error e, h)
    | .ok h' => h'.registerSinks sink rest

/-- `Qubit.__init__`, qip.py:15-42, for an object of the given class.  Result: the new reference or the exception, and
the heap (an object whose constructor fails after line 35 still exists: earlier inputs have it as sink). -/
def initQubit (h : Heap) (kind : Kind) (inputs : List Nat) (n : Option Int) (qid : Option Nat)
    (default : Option Default) : Except PyErr Nat × Heap :=
  let n : Int := match n with
    | some n => n
    | none => if inputs.length > 0 then ((inputs.map h.n).sum : Nat) else 1
  -- `type(default) == list and len(default) != 2 ** n` (for negative `n` the power is a float, never equal)
  if (match default with | some (.list l) => decide (n < 0 ∨ l.length ≠ 2 ^ n.toNat) | _ => false) then
    (.error .valueError, h)
  else if n ≤ 0 then (.error .exception, h)
  else
    let (q, next) := match qid with
      | some q => (q, h.nextQid)
      | none => (h.nextQid, h.nextQid + 1)
    let x := h.nodes.length
    let h' : Heap := ⟨h.nodes ++ [⟨kind, n.toNat, q, inputs, default, []⟩], next⟩
    match h'.registerSinks x inputs with
    | (.error e, h'') => (.error e, h'')
    | (.ok (), h'') => (.ok x, h'')

/-- The loop of `split`, qip.py:67-74, over consecutive boundaries. -/
def splitLoop (h : Heap) (q : Nat) : List Int → Option Nat → Except PyErr (List Nat) × Heap
  | a :: b :: rest, qid =>
    let indices := (List.range (b - a).toNat).map fun (i : Nat) => a + i
    match h.initQubit (.split indices) [q] (some indices.length) qid none with
    | (.error e, h') => (.error e, h')
    | (.ok x, h') =>
      match h'.splitLoop q (b :: rest) (some (h'.qid x)) with
      | (.error e, h'') => (.error e, h'')
      | (.ok xs, h'') => (.ok (x :: xs), h'')
  | _, _ => (.ok [], h)

/-- Default boundaries, qip.py:51-55. -/
def cumulative (h : Heap) : List Nat → Int → List Int
  | [], _ => []
  | q :: qs, index => (h.n q + index) :: h.cumulative qs (index + h.n q)

/-- Adding the two ends, qip.py:62-65. -/
def addEnds (n : Nat) (indices : List Int) : List Int :=
  let indices := if (0 : Int) ∈ indices then indices else 0 :: indices
  if (n : Int) ∈ indices then indices else indices ++ [(n : Int)]

/-- `Qubit.split`, qip.py:44-76 (`none` is `indices=None`). -/
def split (h : Heap) (q : Nat) (indices : Option (List Int)) : Except PyErr (List Nat) × Heap :=
  match indices with
  | none =>
    let indices := h.cumulative (h.inputs q) 0
    if indices.length = 1 then (.ok [q], h) else h.splitLoop q (addEnds (h.n q) indices) none
  | some indices => h.splitLoop q (addEnds (h.n q) (indices.mergeSort fun a b => decide (a ≤ b))) none

/-- Argument of `extract_index`. -/
inductive ExtractArg where
  | one (i : Int)
  | many (is : List Int)

/-- `Qubit.extract_index`, qip.py:78-89.  The test `indices == int` is never true, so a single int is iterated over
(TypeError). -/
def extractIndex (h : Heap) (q : Nat) (arg : ExtractArg) : Except PyErr (Nat × Nat) × Heap :=
  match arg with
  | .one _ => (.error .typeError, h)
  | .many is =>
    let sel := is.filter fun (i : Int) => 0 ≤ i ∧ i < (h.n q : Int)
    let rest := ((List.range (h.n q)).map fun (i : Nat) => (i : Int)).filter fun i => i ∉ is
    match h.initQubit (.split sel) [q] (some sel.length) none none with
    | (.error e, h') => (.error e, h')
    | (.ok x, h') =>
      match h'.initQubit (.split rest) [q] (some rest.length) (some (h'.qid x)) none with
      | (.error e, h'') => (.error e, h'')
      | (.ok y, h'') => (.ok (x, y), h'')

/-- `Measure.__init__`, qip.py:138-146: registers itself twice; `measure_by` is stored and never used. -/
def mkMeasure (h : Heap) (inputs : List Nat) : Except PyErr Nat × Heap :=
  match h.initQubit .measure inputs none none none with
  | (.error e, h') => (.error e, h')
  | (.ok x, h') =>
    let h1 : Heap := { h' with nodes := h'.nodes.modify x fun nd => { nd with n := (inputs.map h.n).sum } }
    match h1.registerSinks x inputs with
    | (.error e, h'') => (.error e, h'')
    | (.ok (), h'') => (.ok x, h'')

/-- `StochasticMeasure.__init__`, qip.py:169-175: registers itself twice. -/
def mkStochastic (h : Heap) (inputs : List Nat) (topK : Int) : Except PyErr Nat × Heap :=
  match h.initQubit (.smeasure topK) inputs none none none with
  | (.error e, h') => (.error e, h')
  | (.ok x, h') =>
    match h'.registerSinks x inputs with
    | (.error e, h'') => (.error e, h'')
    | (.ok (), h'') => (.ok x, h'')

end Heap

/-- What is constructed: a matrix op (its parameters are part of `Gate`; the size inside `swap` is taken from the
inputs), an `FOp`, or `C` of something. -/
inductive OpSpec where
  | gate (g : Gate)
  | fop (f : Nat → Except PyErr Int)
  | c (op : OpSpec)

namespace Heap

/-- Constructors of the matrix operations without control: `Qubit.__init__`, then the tests of `SwapOp.__init__`,
operators.py:139-142. -/
def mkSimple (h : Heap) (g : Gate) (dagger : Bool) (inputs : List Nat) : Except PyErr Nat × Heap :=
  match g with
  | .swap _ =>
    match h.initQubit (.gate (.swap (h.n (inputs.getD 0 0))) dagger) inputs none none none with
    | (.error e, h') => (.error e, h')
    | (.ok x, h') =>
      if inputs.length ≠ 2 then (.error .exception, h')
      else if h'.n (inputs.getD 0 0) ≠ h'.n (inputs.getD 1 0) then (.error .exception, h')
      else (.ok x, h')
  | .c _ => (.error .typeError, h) -- no such call: controlled operations are made by `COp` (see `construct`)
  | g => h.initQubit (.gate g dagger) inputs none none none

/-- The tests at the beginning of `COp.__init__`, operators.py:199-204. -/
def controlOK (h : Heap) (inputs : List Nat) : Bool :=
  decide (2 ≤ inputs.length ∧ h.n (inputs.getD 0 0) = 1 ∧ inputs.Nodup)

/-- Operation constructors: `mkSimple`; `FOp.__init__`, operators.py:275-285 (called with other than two registers:
TypeError); `COp.__init__`, operators.py:198-216, whose inner operation is a node of its own: its `nosink` keyword is
dropped by `QubitOpWrapper.__call__` (qubit_util.py:142-143), so it becomes a sink of `inputs[1:]`, too.
-/
def construct (h : Heap) (op : OpSpec) (dagger : Bool) (inputs : List Nat) : Except PyErr Nat × Heap :=
  match op with
  | .gate g => h.mkSimple g dagger inputs
  | .fop f => if inputs.length ≠ 2 then (.error .typeError, h) else h.initQubit (.fop f) inputs none none none
  | .c op =>
    if ¬ h.controlOK inputs then (.error .valueError, h)
    else
      -- keywords reach the inner operation only through `QubitOpWrapper`, which drops them
      match h.construct op false inputs.tail with
      | (.error e, h') => (.error e, h')
      | (.ok y, h') =>
        match h'.kind y with
        | .gate g _ => h'.initQubit (.gate (.c g) dagger) inputs none (some (h'.qid y)) none
        | _ => (.error .valueError, h')

/-- One call made by a user. -/
inductive Cmd where
  | qubit (inputs : List Nat) (n : Option Int) (default : Option Default)
  | split (q : Nat) (indices : Option (List Int))
  | extract (q : Nat) (arg : ExtractArg)
  | op (op : OpSpec) (dagger : Bool) (inputs : List Nat)
  | measure (inputs : List Nat)
  | smeasure (inputs : List Nat) (topK : Int)

/-- The references passed by a call. -/
def Cmd.args : Cmd → List Nat
  | .qubit inputs _ _ => inputs
  | .split q _ => [q]
  | .extract q _ => [q]
  | .op _ _ inputs => inputs
  | .measure inputs => inputs
  | .smeasure inputs _ => inputs

/-- Result of a call: returned references or exception, and the new heap. -/
def exec (h : Heap) : Cmd → Except PyErr (List Nat) × Heap
  | .qubit inputs n default => let r := h.initQubit .qubit inputs n none default; (r.1.map ([·]), r.2)
  | .split q indices => h.split q indices
  | .extract q arg => let r := h.extractIndex q arg; (r.1.map fun p => [p.1, p.2], r.2)
  | .op op dagger inputs => let r := h.construct op dagger inputs; (r.1.map ([·]), r.2)
  | .measure inputs => let r := h.mkMeasure inputs; (r.1.map ([·]), r.2)
  | .smeasure inputs topK => let r := h.mkStochastic inputs topK; (r.1.map ([·]), r.2)

/-- The heaps a user can build, with the references they hold.  After an exception the user may go on. -/
inductive Built : Heap → List Nat → Prop
  | start : Built empty []
  | call {h env} (cmd : Cmd) : Built h env → (∀ x ∈ cmd.args, x ∈ env) →
      Built (h.exec cmd).2 (env ++ match (h.exec cmd).1 with | .ok xs => xs | .error _ => [])

end Heap

end QIP
