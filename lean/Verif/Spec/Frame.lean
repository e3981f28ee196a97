/-!
# Specification: a stream of messages, each preceded by its length in four bytes
-/

namespace QIP.Spec

/-- Length of the stream: four bytes more per message. -/
def streamLen (msgs : List (List Nat)) : Nat := (msgs.map fun m => 4 + m.length).sum

/-- No delivered chunk consists of header bytes of one message only: the chunk that covers the positions
`pre.flatten.length …` never lies within the four bytes before a message. -/
def NoHeaderChunk (msgs chunks : List (List Nat)) : Prop :=
  ∀ pre c post, chunks = pre ++ c :: post → ∀ ms₁ m ms₂, msgs = ms₁ ++ m :: ms₂ →
    ¬ (streamLen ms₁ ≤ pre.flatten.length ∧ pre.flatten.length + c.length ≤ streamLen ms₁ + 4)

end QIP.Spec
