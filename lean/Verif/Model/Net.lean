import Mathlib.Logic.Function.Basic
import Verif.Model.Err

/-!
# Processes that exchange messages

A process is a deterministic machine; two processes are joined by a pair of sockets, one queue per direction.  Sending
does not wait (socket buffers are unbounded here), receiving waits for a message.  A message is delivered as a whole and
in order (framing is the subject of C57).
-/

namespace QIP

/-- What a process does next. -/
inductive Act (P M S : Type) where
  /-- nothing any more (finished, or died with an exception) -/
  | halt
  /-- `sock.send` on the socket to `dst` -/
  | send (dst : P) (m : M) (next : S)
  /-- `sock.recv` on the socket to `src` -/
  | recv (src : P) (next : M → S)

/-- Local states, and the messages on the way from one process to another. -/
structure Cfg (P M S : Type) where
  loc : P → S
  buf : P × P → List M

variable {P M S : Type} [DecidableEq P]

/-- One step of process `p`, if it can make one. -/
def stepP (act : P → S → Act P M S) (p : P) (c : Cfg P M S) : Option (Cfg P M S) :=
  match act p (c.loc p) with
  | .halt => none
  | .send q m s => some ⟨Function.update c.loc p s, Function.update c.buf (p, q) (c.buf (p, q) ++ [m])⟩
  | .recv q k =>
    match c.buf (q, p) with
    | [] => none
    | m :: rest => some ⟨Function.update c.loc p (k m), Function.update c.buf (q, p) rest⟩

/-- The processes make steps in the given order. -/
def exec (act : P → S → Act P M S) : List P → Cfg P M S → Option (Cfg P M S)
  | [], c => some c
  | p :: t, c =>
    match stepP act p c with
    | none => none
    | some c' => exec act t c'

/-- No process can make a step. -/
def Stuck (act : P → S → Act P M S) (c : Cfg P M S) : Prop := ∀ p, stepP act p c = none

/-- Every execution, whatever the order of steps, ends, and it ends in `f`: there is a number of steps such that every
execution from `c` has at most so many steps and can be continued, by the remaining number of steps, to `f`, where
nothing happens any more. -/
def AlwaysEnds (act : P → S → Act P M S) (c f : Cfg P M S) : Prop :=
  Stuck act f ∧ ∃ n, ∀ t c', exec act t c = some c' → ∃ t', exec act t' c' = some f ∧ t.length + t'.length = n

end QIP
