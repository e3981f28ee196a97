import Verif.Model.Frame

/-!
# Accepting connections (`ManagerServer.run` and `stop`, `qip/distributed/manager.py:497-539`; `WorkerPoolServer.run`,
`qip/distributed/worker/worker.py:206-229`)

The parser of protobuf messages is a parameter: `none` for data that is not a message (`DecodeError`, which is no `IOError`).
`tcpsock.accept` itself does not fail.
-/

namespace QIP

/-- A connection made to a server. -/
structure Incoming where
  /-- the byte of manager.py:515 can be sent -/
  greeted : Bool
  /-- the TLS handshake (516-522) succeeds within the timeout of a second (only with a certificate) -/
  shaken : Bool
  /-- what arrives from the peer until it sends no more; the empty chunk: it closes the connection -/
  chunks : List Bytes

/-- What becomes of a connection: it is handed on with what the peer said and the bytes already read after it (`lastbytes`); it is
closed; the server waits for data that does not come; an exception ends the loop. -/
inductive Accepted (α : Type) where
  | handed (info : α) (lastbytes : Bytes)
  | dropped
  | hangs
  | dies

/-- The body of the loop of `ManagerServer.run`, manager.py:510-535.  IOError is caught (530-535); no timeout is set any more (524)
when the host information is read (525). -/
def acceptOne {α : Type} (tls : Bool) (decode : Bytes → Option α) (c : Incoming) : Accepted α :=
  if c.greeted = false then .dropped
  else if tls = true ∧ c.shaken = false then .dropped
  else
    match frameRecv [] c.chunks with
    | .ioError => .dropped
    | .blocked => .hangs
    | .got m last _ =>
      match decode m with
      | none => .dies
      | some info => .handed info last

/-- The body of the loop of `WorkerPoolServer.run`, worker.py:211-213: nothing is sent or caught. -/
def partnerOne {α : Type} (decode : Bytes → Option α) (c : Incoming) : Accepted α :=
  match frameRecv [] c.chunks with
  | .ioError => .dies
  | .blocked => .hangs
  | .got m last _ =>
    match decode m with
    | none => .dies
    | some info => .handed info last

/-- What the loop is doing. -/
inductive Loop where
  | accepting
  | hanging
  | dead
  | ended
  deriving DecidableEq

/-- A server: `running`, and what it has done.  `handed` are the connections given to threads (528-529) with their numbers. -/
structure Server (α : Type) where
  running : Bool
  loop : Loop
  count : Nat
  handed : List (Nat × α × Bytes)

def Server.start {α : Type} : Server α := ⟨true, .accepting, 0, []⟩

/-- What happens to a server: a connection is made to it, or `stop` (537-539) is called. -/
inductive ServerEvent where
  | conn (c : Incoming)
  | stop

/-- A step of a server whose loop has the body `one`; `while self.running` is tested after the connection (508). -/
def serverStep {α : Type} (one : Incoming → Accepted α) (s : Server α) : ServerEvent → Server α
  | .stop => { s with running := false }
  | .conn c =>
    match s.loop with
    | .accepting =>
      let again := if s.running then Loop.accepting else Loop.ended
      match one c with
      | .handed info last => { s with loop := again, count := s.count + 1, handed := s.handed ++ [(s.count, info, last)] }
      | .dropped => { s with loop := again, count := s.count + 1 }
      | .hangs => { s with loop := .hanging, count := s.count + 1 }
      | .dies => { s with loop := .dead, count := s.count + 1 }
    | _ => { s with count := s.count + 1 }

def serverRun {α : Type} (one : Incoming → Accepted α) (es : List ServerEvent) : Server α := es.foldl (serverStep one) .start

end QIP
