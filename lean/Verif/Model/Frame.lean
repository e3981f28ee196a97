import Verif.Model.Err

/-!
# Message framing (`qip/distributed/formatsock.py`)

Bytes are natural numbers.  The socket is the list of chunks that successive calls of `sock.recv(8192)` return; the
empty chunk means that the peer closed the connection, the end of the list that no more data arrives (the call
blocks).  Calls are sequential here; threads that share a socket are in `Model/Locks`.
-/

namespace QIP

abbrev Bytes := List Nat

/-- `struct.pack('>i', k)` for `k ≥ 0`: big-endian, 4 bytes, struct.error from `2 ** 31`. -/
def packI (k : Nat) : Except PyErr Bytes :=
  if k < 2 ^ 31 then .ok [k / 2 ^ 24 % 256, k / 2 ^ 16 % 256, k / 2 ^ 8 % 256, k % 256] else .error .exception

/-- `struct.unpack('>i', data)[0]` (two's complement). -/
def unpackI (data : Bytes) : Int :=
  let u : Nat := data.foldl (fun (a b : Nat) => a * 256 + b) 0
  if u < 2 ^ 31 then (u : Int) else (u : Int) - 2 ^ 32

/-- `FormatSocket.send`, formatsock.py:19-32: the bytes given to `sendall` (a `str` is encoded before; other types
are not represented). -/
def frameSend (msg : Bytes) : Except PyErr Bytes := do
  let h ← packI msg.length
  pure (h ++ msg)

/-- `bs[k:]` with Python's meaning of negative `k`. -/
def pyDrop (bs : Bytes) (k : Int) : Bytes := if 0 ≤ k then bs.drop k.toNat else bs.drop (bs.length - (-k).toNat)

/-- `bs[:k]` with Python's meaning of negative `k`. -/
def pyTake (bs : Bytes) (k : Int) : Bytes := if 0 ≤ k then bs.take k.toNat else bs.take (bs.length - (-k).toNat)

/-- `sys.maxsize`. -/
def maxsize : Int := 2 ^ 63 - 1

/-- How a call of `recv` ends: with a message (and the new `lastbytes` and the chunks not yet read), waiting for data
that does not come, or with IOError. -/
inductive Recv where
  | got (msg lastbytes : Bytes) (rest : List Bytes)
  | blocked
  | ioError
  deriving DecidableEq, Repr

/-- The `while` loop of `FormatSocket.recv` and the two lines after it, formatsock.py:59-73. -/
def recvLoop (total msg : Bytes) (expected : Int) : List Bytes → Recv
  | [] => if (msg.length : Int) < expected then .blocked
      else .got (pyTake msg expected) (pyDrop msg expected) []
  | c :: cs =>
    if (msg.length : Int) < expected then
      if c.length = 0 then .ioError
      else if expected = maxsize ∧ (total ++ c).length > 4 then
        recvLoop (total ++ c) (msg ++ (total ++ c).drop 4) (unpackI ((total ++ c).take 4)) cs
      else recvLoop (total ++ c) (msg ++ c) expected cs
    else .got (pyTake msg expected) (pyDrop msg expected) (c :: cs)

/-- `FormatSocket.recv`, formatsock.py:42-73. -/
def frameRecv (lastbytes : Bytes) (chunks : List Bytes) : Recv :=
  if lastbytes.length > 4 then recvLoop lastbytes (lastbytes.drop 4) (unpackI (lastbytes.take 4)) chunks
  else recvLoop lastbytes [] maxsize chunks

/-- `k` successive calls of `recv`: the messages, and how the last call left the socket (or how the first
unsuccessful one ended). -/
def recvMany (lastbytes : Bytes) (chunks : List Bytes) : Nat → List Bytes × Recv
  | 0 => ([], .got [] lastbytes chunks)
  | k + 1 =>
    match frameRecv lastbytes chunks with
    | .got m last rest => let r := recvMany last rest k; (m :: r.1, r.2)
    | e => ([], e)

end QIP
