import Verif.Spec.Frame

/-!
# Specification: what a connection to a server brings
-/

namespace QIP.Spec

/-- The bytes of messages on a connection: each preceded by its length. -/
def frames (msgs : List (List Nat)) : List Nat :=
  (msgs.map fun m => [m.length / 2 ^ 24, m.length / 2 ^ 16 % 256, m.length / 2 ^ 8 % 256, m.length % 256] ++ m).flatten

/-- The peer sends these messages and then waits for an answer; the bytes arrive in any chunks that do not end within a header. -/
structure Sends (chunks msgs : List (List Nat)) : Prop where
  short : ∀ m ∈ msgs, m.length < 2 ^ 31
  last : ∀ h : msgs ≠ [], msgs.getLast h ≠ []
  chunk : ∀ c ∈ chunks, c ≠ []
  bytes : chunks.flatten = frames msgs
  header : NoHeaderChunk msgs chunks

/-- The peer closes the connection before its first message is complete; the first chunk, if any, holds the header. -/
def Breaks (chunks : List (List Nat)) : Prop :=
  ∃ cs rest, chunks = cs ++ [] :: rest ∧ (∀ c ∈ cs, c ≠ []) ∧
    (cs.flatten.length ≤ 4 ∨ ∃ c cs', cs = c :: cs' ∧ 4 < c.length ∧
      ∃ m : List Nat, m.length < 2 ^ 31 ∧ ∃ missing, missing ≠ [] ∧ cs.flatten ++ missing = frames [m])

end QIP.Spec
