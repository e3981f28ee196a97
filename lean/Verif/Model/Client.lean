import Verif.Model.Session

/-!
# The client's end of a connection (`DistributedBackend`, `qip/distributed/backend.py`)

`Model/Session` gives what the manager sends to a client.  Here: what the calls of the backend object make of it.  The connection
itself works: what one side sends arrives (so the manager can send its replies and error messages while the client is there).
-/

namespace QIP

/-- A call of a method of the backend object.  The result of the operation at the manager is given from outside (see
`Model/Session`). -/
inductive CCall where
  /-- `kronselect_dot`, backend.py:55-72 -/
  | kron (res : OpRes)
  /-- `measure` (78-93), `reduce_measure` (95-108) or `measure_probabilities` (114-129) -/
  | measure (res : OpRes)
  /-- `func_apply` (74-76) or `soft_measure` (110-112): `NotImplemented(…)` is a call of something that is not callable -/
  | unsupported
  /-- `close`, 131-135; `sent`: the manager can send its confirmation before the client's end is closed -/
  | close (sent : Bool)

/-- How a call ends: it returns (with the outcome and its probability for a measurement); raises Exception with the message of the
manager (67-69; 90-91); raises OSError, sending or receiving (formatsock.py:31, 57-59); raises TypeError; or never ends. -/
inductive CallRes where
  | returned (data : Option (Nat × ℝ))
  | failed
  | lost
  | typeError
  | waits

/-- The connection: whether the client has not closed its end; what the manager sends that has not been read yet; whether
the manager's end is closed after that. -/
structure CConn where
  opened : Bool
  inbox : List Answer
  eof : Bool

/-- Whether a message can be sent, formatsock.py:31.  Not if the client has closed its end.  If the manager's end is closed this may
fail or not (`ok`): the first message after that is usually accepted. -/
def CConn.sends (c : CConn) (ok : Bool) : Bool :=
  c.opened && (ok || !(c.inbox.isEmpty && c.eof))

/-- `close`, backend.py:131-135.  The confirmation is not read. -/
def clientClose (ok : Bool) (c : CConn) : CallRes × CConn :=
  if c.sends ok then (.returned none, { c with opened := false }) else (.lost, c)

/-- One call; `ok` is for the message sent by the call, `ok'` for the one that is sent if the client closes the connection after an
error. -/
def clientCall (ok ok' : Bool) (call : CCall) (c : CConn) : CallRes × CConn :=
  match call with
  | .unsupported => (.typeError, c)
  | .close _ => clientClose ok c
  | .kron _ =>
    if c.sends ok then
      match c.inbox with
      | [] => (if c.eof then .lost else .waits, c)
      | .confirm _ :: rest => (.returned none, { c with inbox := rest })
      -- 67-69: `self.close()` comes before the exception; it may raise itself
      | _ :: rest =>
        let r := clientClose ok' { c with inbox := rest }
        (match r.1 with
          | .returned _ => .failed
          | _ => .lost, r.2)
    else (.lost, c)
  | .measure _ =>
    if c.sends ok then
      match c.inbox with
      | [] => (if c.eof then .lost else .waits, c)
      -- 93: the fields of a missing result are zero
      | .confirm d :: rest => (.returned (some (d.getD (0, 0))), { c with inbox := rest })
      | _ :: rest => (.failed, { c with inbox := rest })
    else (.lost, c)

/-- Calls one after the other; exceptions are caught by the caller, who goes on.  Nothing comes after a call that never ends. -/
def clientRun (ok ok' : Nat → Bool) : List CCall → CConn → List CallRes
  | [], _ => []
  | call :: calls, c =>
    match clientCall (ok 0) (ok' 0) call c with
    | (.waits, _) => [.waits]
    | (r, c') => r :: clientRun (fun k => ok (k + 1)) (fun k => ok' (k + 1)) calls c'

/-- The messages that reach the manager (those sent after the end of a session do not matter). -/
def clientRequests : List CCall → List Request
  | [] => []
  | .kron res :: calls => .op res true :: clientRequests calls
  | .measure res :: calls => .op res true :: clientRequests calls
  | .unsupported :: calls => clientRequests calls
  | .close sent :: calls => .close sent :: clientRequests calls

/-- The client's view of a session.  The manager's end is closed by line 90 of `serve_client`; if an exception has left that
function before, the object is dropped, and Python closes the socket with the last reference to it.  One is in the local
variables of `ManagerServer.run` (manager.py:513-530) until they are assigned again: for the next connection.  `later`: there is one. -/
def clientConn (later : Bool) (r : Served) : CConn :=
  ⟨true, r.answers, r.closed || (r.ending != .waiting && later)⟩

/-- How `make_state` (backend.py:30-53) ends and the results of the calls after it, which there are only if it returns. -/
def clientSession (ok ok' : Nat → Bool) (later told : Bool) (s : MState) (n h : Nat) (alloc : AllocEnd) (calls : List CCall) :
    CallRes × List CallRes :=
  let c := clientConn later (serveClient s n h alloc true told true (clientRequests calls))
  match c.inbox with
  | [] => (if c.eof then .lost else .waits, [])
  | .handle _ :: rest => (.returned none, clientRun ok ok' calls { c with inbox := rest })
  | _ :: _ => (.failed, [])

end QIP
