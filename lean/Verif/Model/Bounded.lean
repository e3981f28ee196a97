import Verif.Model.Net

/-!
# Sockets of bounded capacity

As `Model/Net`, but sending waits until there is room: `FormatSocket.send` (formatsock.py:19-32) is `sock.sendall`, which
blocks while the buffers of the operating system are full because the peer does not read.  Simplified: a capacity is a
number of messages, for every direction of every connection (the operating system counts bytes; the acknowledgements of
a job are all of one size); it includes what `FormatSocket.recv` keeps in `lastbytes` (formatsock.py:49-72), which is
less than one read of `RECV_SIZE` bytes.
-/

namespace QIP

/-- Whether `n` messages fit; `none`: unbounded. -/
def hasRoom : Option Nat → Nat → Bool
  | none, _ => true
  | some k, n => decide (n ≤ k)

variable {P M S : Type} [DecidableEq P]

/-- One step of process `p`, if it can make one: a message is sent only if it fits. -/
def stepB (act : P → S → Act P M S) (cap : P × P → Option Nat) (p : P) (c : Cfg P M S) : Option (Cfg P M S) :=
  match act p (c.loc p) with
  | .halt => none
  | .send q m s =>
    if hasRoom (cap (p, q)) ((c.buf (p, q)).length + 1) then
      some ⟨Function.update c.loc p s, Function.update c.buf (p, q) (c.buf (p, q) ++ [m])⟩
    else none
  | .recv q k =>
    match c.buf (q, p) with
    | [] => none
    | m :: rest => some ⟨Function.update c.loc p (k m), Function.update c.buf (q, p) rest⟩

/-- The processes make steps in the given order. -/
def execB (act : P → S → Act P M S) (cap : P × P → Option Nat) : List P → Cfg P M S → Option (Cfg P M S)
  | [], c => some c
  | p :: t, c =>
    match stepB act cap p c with
    | none => none
    | some c' => execB act cap t c'

/-- No process can make a step. -/
def StuckB (act : P → S → Act P M S) (cap : P × P → Option Nat) (c : Cfg P M S) : Prop := ∀ p, stepB act cap p c = none

/-- Every execution, whatever the order of steps, ends, and it ends in `f` (as `AlwaysEnds`). -/
def AlwaysEndsB (act : P → S → Act P M S) (cap : P × P → Option Nat) (c f : Cfg P M S) : Prop :=
  StuckB act cap f ∧
    ∃ n, ∀ t c', execB act cap t c = some c' → ∃ t', execB act cap t' c' = some f ∧ t.length + t'.length = n

end QIP
