import Mathlib.Logic.Function.Basic
import Mathlib.Logic.Relation
import Verif.Model.Frame

/-!
# Several threads on one connection (the locks of `qip/distributed/formatsock.py`)

`sendlock` and `recvlock`; `datalock` only protects the timeout.  Threads are numbers.  A step is what happens between two points
at which another thread can run: taking a lock, one system call, giving the lock back.
-/

namespace QIP

/-- The sending side of a connection. -/
structure SendSt where
  /-- the messages that each thread is going to send, by calls of `send` one after the other -/
  todo : Nat → List Bytes
  /-- the thread in `sendlock` -/
  lock : Option Nat
  /-- what `sendall` has not yet written -/
  cur : Bytes
  /-- all bytes written -/
  wire : Bytes
  /-- the socket has been closed, or writing failed -/
  closed : Bool
  /-- writing failed -/
  broken : Bool
  /-- not in the code: the messages whose writing has begun, with the threads, in order -/
  order : List (Nat × Bytes)

def SendSt.init (todo : Nat → List Bytes) : SendSt := ⟨todo, none, [], [], false, false, []⟩

/-- `FormatSocket.send`, formatsock.py:28-30, and `close`, 88-91. -/
inductive SendStep : SendSt → SendSt → Prop where
  /-- take `sendlock` (29), `pack` and begin `sendall` (30) -/
  | start {s : SendSt} {t m ms f} (hl : s.lock = none) (hc : s.closed = false) (ht : s.todo t = m :: ms) (hf : frameSend m = .ok f) :
    SendStep s { s with todo := Function.update s.todo t ms, lock := some t, cur := f, order := s.order ++ [(t, m)] }
  /-- `sendall` writes some of its bytes -/
  | write {s : SendSt} {t k} (hl : s.lock = some t) (hk : 0 < k) :
    SendStep s { s with cur := s.cur.drop k, wire := s.wire ++ s.cur.take k }
  /-- `sendall` is done, the lock is given back -/
  | release {s : SendSt} {t} (hl : s.lock = some t) (hd : s.cur = []) : SendStep s { s with lock := none }
  /-- the connection fails during `sendall`: OSError, the lock is given back -/
  | fail {s : SendSt} {t} (hl : s.lock = some t) : SendStep s { s with lock := none, cur := [], closed := true, broken := true }
  /-- `close`: it takes `sendlock` -/
  | close {s : SendSt} (hl : s.lock = none) : SendStep s { s with closed := true }
  /-- `send` on a closed socket (OSError) or of a message of `2 ** 31` bytes (struct.error): nothing is written -/
  | refuse {s : SendSt} {t m ms} (hl : s.lock = none) (ht : s.todo t = m :: ms)
    (hr : s.closed = true ∨ ∃ e, frameSend m = .error e) : SendStep s { s with todo := Function.update s.todo t ms }

/-- The receiving side of a connection. -/
structure RecvSt where
  /-- the number of calls of `recv` that each thread is still going to make -/
  want : Nat → Nat
  /-- the thread in `recvlock` -/
  lock : Option Nat
  /-- `lastbytes` -/
  last : Bytes
  /-- the locals `total_data`, `msg_data`, `expected_size` of the thread in `recvlock` -/
  total : Bytes
  msg : Bytes
  expected : Int
  /-- the chunks that `sock.recv` is going to return -/
  chunks : List Bytes
  /-- a call of `recv` has raised, or the socket has been replaced -/
  broken : Bool
  /-- not in the code: the messages returned, with the threads, in order -/
  got : List (Nat × Bytes)

def RecvSt.init (want : Nat → Nat) (chunks : List Bytes) : RecvSt := ⟨want, none, [], [], [], 0, chunks, false, []⟩

/-- `FormatSocket.recv`, formatsock.py:48-73, on a socket on which a timeout may be set, and `closeswapsock`. -/
inductive RecvStep : RecvSt → RecvSt → Prop where
  /-- take `recvlock` (48), lines 49-57 -/
  | enter {s : RecvSt} {t k} (hl : s.lock = none) (hw : s.want t = k + 1) :
    RecvStep s { s with
      want := Function.update s.want t k
      lock := some t
      last := []
      total := s.last
      msg := if s.last.length > 4 then s.last.drop 4 else []
      expected := if s.last.length > 4 then unpackI (s.last.take 4) else maxsize }
  /-- a chunk arrives, lines 59-70 -/
  | chunk {s : RecvSt} {t c cs} (hl : s.lock = some t) (hm : (s.msg.length : Int) < s.expected) (hc : s.chunks = c :: cs)
    (hne : c.length ≠ 0) :
    RecvStep s (if s.expected = maxsize ∧ (s.total ++ c).length > 4 then
      { s with chunks := cs, total := s.total ++ c, msg := s.msg ++ (s.total ++ c).drop 4, expected := unpackI ((s.total ++ c).take 4) }
      else { s with chunks := cs, total := s.total ++ c, msg := s.msg ++ c })
  /-- the peer has closed the connection: IOError (61-62), the lock is given back -/
  | fail {s : RecvSt} {t c cs} (hl : s.lock = some t) (hm : (s.msg.length : Int) < s.expected) (hc : s.chunks = c :: cs)
    (he : c.length = 0) : RecvStep s { s with lock := none, chunks := cs, broken := true }
  /-- `sock.recv` times out (`settimeout`, 92-95): socket.timeout, the lock is given back -/
  | timeout {s : RecvSt} {t} (hl : s.lock = some t) (hm : (s.msg.length : Int) < s.expected) :
    RecvStep s { s with lock := none, broken := true }
  /-- `closeswapsock`, 34-40: it waits for `recvlock` -/
  | swap {s : RecvSt} {cs} (hl : s.lock = none) : RecvStep s { s with chunks := cs, broken := true }
  /-- lines 71-73, the lock is given back -/
  | done {s : RecvSt} {t} (hl : s.lock = some t) (hm : ¬ (s.msg.length : Int) < s.expected) :
    RecvStep s { s with lock := none, last := pyDrop s.msg s.expected, got := s.got ++ [(t, pyTake s.msg s.expected)] }

end QIP
