import Verif.Model.Run

/-!
# Wrapped operations, circuit functions and contexts (`qip/qubit_util.py`), the QFFT (`qip/qfft.py`)

Entities: operation constructors (`QubitOpWrapper` objects such as `H` and closures such as `makeR(m)`), the context
stack of `QubitWrapperContext`, and circuit functions (`QubitFuncWrapper` objects).
-/

namespace QIP

open Heap

/-- Keyword arguments that mean something to an operation: `negate=True` (operators.py:125), `dagger=True`
(operators.py:13). -/
inductive Kwd where
  | negate
  | dagger
  deriving DecidableEq

/-- Merging keyword dictionaries. -/
def kwUpdate (a b : List Kwd) : List Kwd := a ++ b.filter (· ∉ a)

/-- The keywords that `QubitOpWrapper.__call__` passes on, qubit_util.py:142-143:
`kwargs = self.kwargs.copy(); kwargs.update(kwargs)`. -/
def wrapperKw (own _call : List Kwd) : List Kwd :=
  let kwargs := own
  kwUpdate kwargs kwargs

/-- Callables that make operations.  `op g`: a wrapper of the library called with qubits only (`Not`, `X`, `Y`, `Z`,
`H`, `Swap`); `param g`: `R` and `Rm`, whose first positional argument is the angle or `m` (here part of `g`); `fop f`:
`F`, whose first positional argument is `f`; `bound g kw`: a function such as `makeR(m)`, qfft.py:42-43, that calls a
wrapper with the parameter filled in and with keywords `kw`; `c w`: `C(w)`, operators.py:181-192. -/
inductive Ctor where
  | op (g : Gate)
  | param (g : Gate)
  | fop (f : Nat → Except PyErr Int)
  | bound (g : Gate) (kw : List Kwd)
  | c (w : Ctor)

/-- `negate` is a parameter of `RmOp` only, operators.py:125; other classes ignore it. -/
def Gate.withKw : Gate → List Kwd → Gate
  | .rm m _, kw => .rm m (decide (.negate ∈ kw))
  | g, _ => g

/-- The references among positional arguments (`none`: an argument that is no qubit); `none` if not all are. -/
def allRefs (args : List (Option Nat)) : Option (List Nat) := args.mapM id

/-- The class constructors called with positional and keyword arguments.  Without an argument that is no qubit this is
`Heap.construct`.  An int, float or function has no attribute `n`: AttributeError in `Qubit.__init__` (qip.py:26) and in
the test of the control (operators.py:201). -/
def constructArgs (h : Heap) : Ctor → List Kwd → List (Option Nat) → Except PyErr Nat × Heap
  | .op g, kw, args =>
    match allRefs args with
    | some xs => h.mkSimple (g.withKw kw) (decide (.dagger ∈ kw)) xs
    | none => (.error .attributeError, h)
  | .param g, kw, args =>
    match args with
    | none :: rest =>
      match allRefs rest with
      | some xs => h.mkSimple (g.withKw kw) (decide (.dagger ∈ kw)) xs
      | none => (.error .attributeError, h)
    | _ => (.error (match g with | .rm _ _ => .typeError | _ => .attributeError), h)
  | .fop f, _, args =>
    match args with
    | none :: rest =>
      match allRefs rest with
      | some xs => h.construct (.fop f) false xs
      | none => (.error .attributeError, h)
    | _ => (.error .typeError, h)
  | .bound g kw, _, args =>
    match allRefs args with
    | some xs => h.mkSimple (g.withKw (wrapperKw [] kw)) (decide (.dagger ∈ wrapperKw [] kw)) xs
    | none => (.error .attributeError, h)
  | .c w, kw, args =>
    match args with
    | [] => (.error .valueError, h)
    | [_] => (.error .valueError, h)
    | none :: _ => (.error .attributeError, h)
    | some q :: rest =>
      if h.n q ≠ 1 then (.error .valueError, h)
      else if ¬ (some q :: rest).Nodup then (.error .valueError, h)
      else
        -- the inner call goes through `QubitOpWrapper.__call__`, which drops the keywords
        match constructArgs h w [] rest with
        | (.error e, h') => (.error e, h')
        | (.ok y, h') =>
          match h'.kind y with
          | .gate g _ =>
            match allRefs (some q :: rest) with
            | some xs => h'.initQubit (.gate (.c g) (decide (.dagger ∈ kw))) xs none (some (h'.qid y)) none
            | none => (.error .attributeError, h')
          | _ => (.error .valueError, h')

/-- One triple of `QubitWrapperContext.context`, qubit_util.py:34-39.  The constructor is `C` applied `ctrls` times (`C`
itself, or a user's `lambda op: C(C(op))`); negative indices are not represented. -/
structure Entry where
  ctrls : Nat
  qubits : List Nat
  indices : List Nat

/-- Everything these modules change: the objects, `CONTEXT_STACK` (innermost last), `TOTAL_CONTEXT_QUBITS`, and for
every circuit function object the length of its `wrapper_funcs` (every element is `(C, [0])`). -/
structure WState where
  heap : Heap
  stack : List (List Entry)
  total : Int
  wraps : Nat → Nat

/-- Python code that may raise and changes the state. -/
def W (α : Type) : Type := WState → Except PyErr α × WState

instance : Monad W where
  pure a := fun s => (.ok a, s)
  bind m f := fun s => match m s with
    | (.ok a, s') => f a s'
    | (.error e, s') => (.error e, s')

/-- `raise`. -/
def W.raise {α : Type} (e : PyErr) : W α := fun s => (.error e, s)

/-- `try: m except …: handler`. -/
def W.tryCatch {α : Type} (m : W α) (handler : PyErr → W α) : W α := fun s => match m s with
  | (.ok a, s') => (.ok a, s')
  | (.error e, s') => handler e s'

/-- `list.insert`. -/
def pyInsert {α : Type} (l : List α) (i : Nat) (x : α) : List α := l.take i ++ x :: l.drop i

/-- `put_qubits_in_local_context_order`/`put_qubits_in_context_order`, qubit_util.py:71-85. -/
def putInOrder {α : Type} (f : Nat → α) (context : List Entry) (qubits : List α) : List α :=
  context.reverse.foldl (fun l e => (e.qubits.zip e.indices).foldl (fun l p => pyInsert l p.2 (f p.1)) l) qubits

/-- Popping a list of indices one after the other, qubit_util.py:90-95. -/
def popAll : List Nat → List Nat → Except PyErr (List Nat × List Nat)
  | [], l => .ok ([], l)
  | i :: is, l =>
    match l[i]? with
    | none => .error .indexError
    | some x =>
      match popAll is (l.eraseIdx i) with
      | .error e => .error e
      | .ok (xs, rest) => .ok (x :: xs, rest)

/-- The inner loop of `set_qubits`, qubit_util.py:116-119, and the rest of the list of qubits. -/
def setEntries : List Entry → List Nat → List Entry × List Nat
  | [], l => ([], l)
  | e :: es, l =>
    let new := l.take e.qubits.length
    let r := setEntries es (l.drop new.length)
    ({ e with qubits := new } :: r.1, r.2)

/-- The outer loop of `set_qubits`, qubit_util.py:115. -/
def setStack : List (List Entry) → List Nat → List (List Entry)
  | [], _ => []
  | es :: st, l =>
    let r := setEntries es l
    r.1 :: setStack st r.2

/-- `make_context_constructor`, qubit_util.py:98-104: the innermost context is applied first. -/
def contextCtor (context : List Entry) (w : Ctor) : Ctor :=
  context.reverse.foldl (fun w e => Ctor.c^[e.ctrls] w) w

/-- `apply_to_qubits_in_context`, qubit_util.py:42-69, called by a wrapper that has no keywords of its own. -/
def applyInContext (w : Ctor) (args : List (Option Nat)) : W (List Nat) := fun s =>
  let inside := decide (0 < s.stack.length)
  let args := if inside then putInOrder some s.stack.flatten args else args
  let w := if inside then contextCtor s.stack.flatten w else w
  match constructArgs s.heap w (wrapperKw [] []) args with
  | (.error e, h) => (.error e, { s with heap := h })
  | (.ok x, h) =>
    match h.split x none with
    | (.error e, h) => (.error e, { s with heap := h })
    | (.ok qs, h) =>
      if inside then
        match popAll (s.stack.flatten.flatMap (·.indices)) qs with
        | .error e => (.error e, { s with heap := h })
        | .ok (applied, rest) =>
          if (applied.length : Int) ≠ s.total then (.error .valueError, { s with heap := h })
          else (.ok rest, { s with heap := h, stack := setStack s.stack applied })
      else (.ok qs, { s with heap := h })

/-- The positional arguments of a call of `w` on qubits: parameters come first. -/
def Ctor.positional : Ctor → List Nat → List (Option Nat)
  | .param _, xs => none :: xs.map some
  | .fop _, xs => none :: xs.map some
  | .c w, x :: xs => some x :: w.positional xs
  | _, xs => xs.map some

/-- `w(*xs, **kw)` by a user: `QubitOpWrapper.__call__`, qubit_util.py:140-158 (without `nocontext`). -/
def callWrapper (w : Ctor) (_kw : List Kwd) (xs : List Nat) : W (List Nat) := do
  let n ← applyInContext w (w.positional xs)
  if n.length = 0 then W.raise .valueError else pure n

/-- Calls that do not go through wrappers: `Qubit(...)`, `split`, measurements, classes of operations. -/
def direct (cmd : Cmd) : W (List Nat) := fun s =>
  let r := s.heap.exec cmd
  (r.1, { s with heap := r.2 })

/-- `with QubitWrapperContext(...):`, qubit_util.py:121-128, around code that gets the context object: `local`
reads `self.context`, the list pushed on the stack. -/
def withContext {α : Type} (context : List Entry) (body : W α) : W α := fun s =>
  let size := (context.map (·.qubits.length)).sum
  let (r, s') := body { s with stack := s.stack ++ [context], total := s.total + size }
  (r, { s' with stack := s'.stack.dropLast, total := s'.total - size })

/-- The list `context.context` while its `with` block is the innermost one. -/
def ownContext : W (List Entry) := fun s => (.ok (s.stack.getLastD []), s)

/-- `input_list.pop(0)` as often as the function has been wrapped, qubit_util.py:175-180: popped inputs in the order of
popping. -/
def popInputs : Nat → List Nat → Except PyErr (List Nat × List Nat)
  | 0, l => .ok ([], l)
  | _ + 1, [] => .error .indexError
  | k + 1, x :: l =>
    match popInputs k l with
    | .error e => .error e
    | .ok (xs, rest) => .ok (x :: xs, rest)

/-- `QubitFuncWrapper.__call__`, qubit_util.py:171-195, for the object `f` around the Python function `body`.  The last
wrapper is popped first, and the list of triples is reversed afterwards. -/
def callFunc (f : Nat) (body : List Nat → W (List Nat)) (inputs : List Nat) : W (List Nat) := fun s =>
  match popInputs (s.wraps f) inputs with
  | .error e => (.error e, s)
  | .ok (popped, rest) =>
    (withContext (popped.reverse.map fun q => ⟨1, [q], [0]⟩) do
      let outputs ← body rest
      let context ← ownContext
      pure (putInOrder id context outputs)) s

/-- `C(f)` for a circuit function: `wrap_op_hook`, qubit_util.py:197-200, changes `f` and returns it. -/
def controlFunc (f : Nat) : W Nat := fun s =>
  (.ok f, { s with wraps := fun g => if g = f then s.wraps g + 1 else s.wraps g })

/-! ## QFFT -/

/-- The inner loop of `recQFFT`, qfft.py:36-38, for `i` from the given list. -/
def qfftRow (offset : Nat) : List Nat → List Nat → W (List Nat)
  | [], qarr => pure qarr
  | i :: is, qarr => do
    let m : Int := 1 + i - offset
    let r ← callWrapper (.c (.bound (.rm m false) [.negate])) [] [qarr.getD i 0, qarr.getD offset 0]
    match r with
    | [a, b] => qfftRow offset is ((qarr.set i a).set offset b)
    | _ => W.raise .valueError

/-- `recQFFT`, qfft.py:33-39; the first argument is `len(qarr) - offset`. -/
def recQFFT : Nat → List Nat → Nat → W (List Nat)
  | 0, qarr, _ => pure qarr
  | k + 1, qarr, offset => do
    let r ← callWrapper (.op .h) [] [qarr.getD offset 0]
    match r with
    | [a] => do
      let qarr ← qfftRow offset (List.range' (offset + 1) (qarr.length - (offset + 1))) (qarr.set offset a)
      recQFFT k qarr (offset + 1)
    | _ => W.raise .valueError

/-- `flatten([inp.split(range(inp.n)) for inp in inputs])`, qfft.py:10. -/
def splitAll : List Nat → W (List Nat)
  | [] => pure []
  | q :: qs => do
    let s : WState ← fun s => (.ok s, s)
    let xs ← direct (.split q (some ((List.range (s.heap.n q)).map fun (i : Nat) => (i : Int))))
    let ys ← splitAll qs
    pure (xs ++ ys)

/-- The swaps of qfft.py:13-16 for the given `i`. -/
def qfftSwaps : List Nat → List Nat → W (List Nat)
  | [], qarr => pure qarr
  | i :: is, qarr => do
    let j := qarr.length - 1 - i
    let r ← callWrapper (.op (.swap 0)) [] [qarr.getD i 0, qarr.getD j 0]
    match r with
    | [a, b] => qfftSwaps is ((qarr.set i a).set j b)
    | _ => W.raise .valueError

/-- The joins of qfft.py:18-23. -/
def qfftJoin : List Nat → List Nat → W (List Nat)
  | [], _ => pure []
  | q :: qs, qarr => do
    let s : WState ← fun s => (.ok s, s)
    let x ← direct (.qubit (qarr.take (s.heap.n q)) none none)
    let ys ← qfftJoin qs (qarr.drop (s.heap.n q))
    pure (x ++ ys)

/-- The decorated function `QFFT`, qfft.py:9-30. -/
def qfftBody (rev : Bool) (inputs : List Nat) : W (List Nat) := do
  let qarr ← splitAll inputs
  let qarr ← recQFFT qarr.length qarr 0
  let qarr ← if rev then qfftSwaps (List.range (qarr.length / 2)) qarr else pure qarr
  let out ← if inputs.length < qarr.length then qfftJoin inputs qarr else pure qarr
  if out = [] then W.raise .indexError else pure out

/-- `QFFT(*inputs, rev=rev)`; `f` is the function object. -/
def qfft (f : Nat) (rev : Bool) (inputs : List Nat) : W (List Nat) := callFunc f (qfftBody rev) inputs

end QIP
