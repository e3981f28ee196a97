import Verif.Model.Wrap
import Verif.Spec.Run

/-!
# Specification: wrapped operations, circuit functions, contexts
-/

namespace QIP

/-- The gate made by a constructor from inputs of the given sizes. -/
def opGate : OpSpec → List Nat → Gate
  | .gate (.swap _), ns => .swap (ns.getD 0 0)
  | .gate g, _ => g
  | .fop _, _ => .x
  | .c op, ns => .c (opGate op ns.tail)

/-- The sizes suit the constructor, which makes a matrix operation. -/
def OpFits : OpSpec → List Nat → Prop
  | .gate (.swap _), ns => ∃ k, ns = [k, k]
  | .gate (.c _), _ => False
  | .gate _, ns => ns ≠ []
  | .fop _, _ => False
  | .c op, ns => ∃ rest, ns = 1 :: rest ∧ rest ≠ [] ∧ OpFits op rest

/-- The constructor behind a callable. -/
def Ctor.spec : Ctor → OpSpec
  | .op g => .gate (g.withKw [])
  | .param g => .gate (g.withKw [])
  | .fop f => .fop f
  | .bound g _ => .gate (g.withKw [])
  | .c w => .c w.spec

/-- A callable that takes qubits only. -/
def Ctor.Closed : Ctor → Prop
  | .op _ => True
  | .param _ => False
  | .fop _ => False
  | .bound _ _ => True
  | .c w => w.Closed

namespace Spec

open Heap

/-- `live` are all current qubits of a circuit that can be run: none has been used, and every qubit is held by exactly
one of them. -/
structure Current (h : Heap) (env live : List Nat) : Prop where
  circuit : Circuit h env live
  ok : ∀ x, Reach h live x → NodeOK h live x
  nomeasure : ∀ x, Reach h live x → NoMeasure h live x
  part : ((live.map (wires h live)).flatten).Perm (List.range (width h live))
  unused : ∀ x ∈ live, h.sinks x = []

/-- Running the circuit with the given fed vectors returns the state `out`, in every environment. -/
def Outputs (h : Heap) (live : List Nat) (feed : List (List Nat × List ℂ)) (out : List ℂ) : Prop :=
  ∀ e, EnvOK h live e → ∃ cl ms', run h (fun _ => none) live (feed.map asFeed) false none e.pick e.shuffle e.orc e.arena
    = .ok (out, cl, ms')

/-- The feed is usable and every other input qubit has a usable default. -/
def Startable (h : Heap) (live : List Nat) (feed : List (List Nat × List ℂ)) : Prop :=
  FeedOK h live feed ∧ ∀ q ∈ leaves h live, q ∉ (feed.map (·.1)).flatten → DefaultOK h q

/-- New registers of the given sizes, made by `Qubit(n=…)`; the objects are `0, 1, …`. -/
def registers (ns : List Nat) : Heap := ns.foldl (fun h (n : Nat) => (h.exec (.qubit [] (some n) none)).2) Heap.empty

/-! ## Circuit functions -/

/-- The elements at given positions. -/
def pick {α : Type} (pos : List Nat) (l : List α) : List α := pos.filterMap (l[·]?)

/-- The elements at the other positions. -/
def leave {α : Type} (pos : List Nat) (l : List α) : List α :=
  pick ((List.range l.length).filter (· ∉ pos)) l

/-- Straight-line circuit functions: the local variables are a list of qubits, and each statement takes some of them
out and adds its results at the end. -/
inductive Circ where
  /-- `return` some of the variables -/
  | ret (outs : List Nat)
  /-- a wrapped operation -/
  | op (w : Ctor) (pos : List Nat) (k : Circ)
  /-- `q.split(bs)` -/
  | split (p : Nat) (bs : List Int) (k : Circ)
  /-- `Qubit(*qs)` -/
  | join (pos : List Nat) (k : Circ)
  /-- a call of the circuit function `f` with the given body -/
  | call (f : Nat) (body : Circ) (pos : List Nat) (k : Circ)

/-- Executing a circuit function on the given variables. -/
def Circ.eval : Circ → List Nat → W (List Nat)
  | .ret outs, cur => pure (pick outs cur)
  | .op w pos k, cur => do
    let r ← callWrapper w [] (pick pos cur)
    k.eval (leave pos cur ++ r)
  | .split p bs k, cur => do
    let r ← direct (.split (cur.getD p 0) (some bs))
    k.eval (leave [p] cur ++ r)
  | .join pos k, cur => do
    let r ← direct (.qubit (pick pos cur) none none)
    k.eval (leave pos cur ++ r)
  | .call f body pos k, cur => do
    let r ← callFunc f body.eval (pick pos cur)
    k.eval (leave pos cur ++ r)

/-- The circuit functions called. -/
def Circ.calls : Circ → List Nat
  | .ret _ => []
  | .op _ _ k => k.calls
  | .split _ _ k => k.calls
  | .join _ k => k.calls
  | .call f body _ k => f :: (body.calls ++ k.calls)

/-- Cuts in ascending order. -/
def cutList (n : Nat) (bs : List Int) : List Nat :=
  (List.range (n + 1)).filter fun c => c = 0 ∨ c = n ∨ (c : Int) ∈ bs

/-- The parts between cuts. -/
def parts (l : List Nat) (bs : List Int) : List (List Nat) :=
  let cs := cutList l.length bs
  (List.range (cs.length - 1)).map fun i => slice l (cs.getD i 0) (cs.getD (i + 1) 0)

/-- The qubits held by the results of a circuit function whose variables hold the qubits `cur`; `wr f` is the number of
controls `f` has. -/
def Circ.outs (wr : Nat → Nat) : Circ → List (List Nat) → List (List Nat)
  | .ret outs, cur => pick outs cur
  | .op _ pos k, cur => k.outs wr (leave pos cur ++ pick pos cur)
  | .split p bs k, cur => k.outs wr (leave [p] cur ++ parts (cur.getD p []) bs)
  | .join pos k, cur => k.outs wr (leave pos cur ++ [(pick pos cur).flatten])
  | .call f body pos k, cur =>
    let ins := pick pos cur
    k.outs wr (leave pos cur ++ ((ins.take (wr f)).reverse ++ body.outs wr (ins.drop (wr f))))

/-- Positions that exist, each once. -/
def PosOK (pos : List Nat) (m : Nat) : Prop := pos.Nodup ∧ ∀ p ∈ pos, p < m

/-- The circuit function suits variables holding the qubits `cur`: wrapped operations without parameters (see
`C50_parameters_false`) of the right number of qubits, splits inside the register, and one qubit for each control of
a controlled function. -/
def Circ.Fits (wr : Nat → Nat) : Circ → List (List Nat) → Prop
  | .ret outs, cur => PosOK outs cur.length
  | .op w pos k, cur => PosOK pos cur.length ∧ w.Closed ∧ OpFits w.spec ((pick pos cur).map List.length) ∧
      k.Fits wr (leave pos cur ++ pick pos cur)
  | .split p bs k, cur => p < cur.length ∧ bs.Nodup ∧ (∀ b ∈ bs, 0 ≤ b ∧ b ≤ ((cur.getD p []).length : Int)) ∧
      k.Fits wr (leave [p] cur ++ parts (cur.getD p []) bs)
  | .join pos k, cur => PosOK pos cur.length ∧ pos ≠ [] ∧ k.Fits wr (leave pos cur ++ [(pick pos cur).flatten])
  | .call f body pos k, cur =>
    let ins := pick pos cur
    PosOK pos cur.length ∧ wr f ≤ pos.length ∧ (∀ w ∈ ins.take (wr f), w.length = 1) ∧
      body.Fits wr (ins.drop (wr f)) ∧
      k.Fits wr (leave pos cur ++ ((ins.take (wr f)).reverse ++ body.outs wr (ins.drop (wr f))))

/-- One operation: controls, gate, qubits. -/
structure Act where
  ctrls : List Nat
  gate : Gate
  groups : List (List Nat)

/-- What it does to a state. -/
noncomputable def Act.apply (n : Nat) (a : Act) (v : Nat → ℂ) (r : Nat) : ℂ :=
  if ∀ c ∈ a.ctrls, qbit n r c = true then gateApply n a.gate a.groups v r else v r

/-- The same with more controls. -/
def Act.more (cs : List Nat) (a : Act) : Act := { a with ctrls := cs ++ a.ctrls }

/-- Operations in order. -/
noncomputable def actAll (n : Nat) (as : List Act) (v : Nat → ℂ) : Nat → ℂ := as.foldl (fun v a => a.apply n v) v

/-- The operations of a circuit function. -/
def Circ.acts (wr : Nat → Nat) : Circ → List (List Nat) → List Act
  | .ret _, _ => []
  | .op w pos k, cur => ⟨[], opGate w.spec ((pick pos cur).map List.length), pick pos cur⟩ ::
      k.acts wr (leave pos cur ++ pick pos cur)
  | .split p bs k, cur => k.acts wr (leave [p] cur ++ parts (cur.getD p []) bs)
  | .join pos k, cur => k.acts wr (leave pos cur ++ [(pick pos cur).flatten])
  | .call f body pos k, cur =>
    let ins := pick pos cur
    (body.acts wr (ins.drop (wr f))).map (Act.more (ins.take (wr f)).flatten) ++
      k.acts wr (leave pos cur ++ ((ins.take (wr f)).reverse ++ body.outs wr (ins.drop (wr f))))

/-- `C(C(…C(f)…))`, `k` times. -/
def nestC (f : Nat) : Nat → W Nat
  | 0 => pure f
  | k + 1 => nestC f k >>= controlFunc

/-! ## Programs -/

/-- What does not change in a context triple when its qubits are updated. -/
def Entry.shape (e : Entry) : Nat × Nat × List Nat := (e.ctrls, e.qubits.length, e.indices)

/-- The count agrees with the stack. -/
def Counted (s : WState) : Prop := s.total = ((s.stack.flatten.map fun e => (e.qubits.length : Int))).sum

/-- Python programs that use the library: they may raise and catch exceptions, look at objects, build circuits, open
contexts, and define, control and call circuit functions. -/
inductive IsProg : {α : Type} → W α → Prop
  | pure {α : Type} (a : α) : IsProg (pure a : W α)
  | raise {α : Type} (e : PyErr) : IsProg (W.raise e : W α)
  | bind {α β : Type} {m : W α} {k : α → W β} : IsProg m → (∀ a, IsProg (k a)) → IsProg (m >>= k)
  | tryCatch {α : Type} {m : W α} {k : PyErr → W α} : IsProg m → (∀ e, IsProg (k e)) → IsProg (W.tryCatch m k)
  | look {α : Type} (g : WState → α) : IsProg fun s => (.ok (g s), s)
  | direct (cmd : Cmd) : IsProg (direct cmd)
  | call (w : Ctor) (kw : List Kwd) (xs : List Nat) : IsProg (callWrapper w kw xs)
  | context {α : Type} (ctx : List Entry) {body : W α} : IsProg body → IsProg (withContext ctx body)
  | func (f : Nat) {body : List Nat → W (List Nat)} (xs : List Nat) : (∀ ys, IsProg (body ys)) → IsProg (callFunc f body xs)
  | control (f : Nat) : IsProg (controlFunc f)

end Spec

end QIP
