import Verif.Spec.Socket

/-!
Model of the socket module: `DataSocket::putMessageData` (SOCK/src/data_socket.cpp 22-73), `DataSocket::getMessageData`
(SOCK/include/klepsydra/socket_core/data_socket.tpp 36-104), `ProtocolSimple` (SOCK/src/protocol_simple.cpp), `StringSizer`
(SOCK/include/klepsydra/socket_core/string_resizer.h).  The operating system is a list of answers; when it is used up the call
is still waiting.
-/

namespace Verif.Socket

/-! ### Writing -/

inductive WRes where
  | returned
  | threw (e : Exc)
  /-- still in the loop -/
  | waiting
  deriving DecidableEq, Repr

/-- What to do after an error of `write`, data_socket.cpp 29-68; `none` = retry. -/
def writeError : Errno → Option Exc
  | .EINVAL | .EBADF | .ECONNRESET | .ENXIO | .EPIPE => some .domain
  | .EDQUOT | .EFBIG | .EIO | .ENETDOWN | .ENETUNREACH | .ENOSPC => some .runtime
  | .EINTR | .EAGAIN => none
  | _ => some .runtime

/-- `putMessageData(buffer, size)`, 22-73: `wire` are the bytes the socket has accepted, `n` is `dataWritten`. -/
def put (buffer : List Byte) (n : Nat) (wire : List Byte) : List WAns → List Byte × WRes
  | [] => if n < buffer.length then (wire, .waiting) else (wire, .returned)
  | .accepted k :: rest =>
    if n < buffer.length then
      -- the socket accepts the first `k` of the `size - dataWritten` bytes from `buffer + dataWritten` on
      let k := min k (buffer.length - n)
      put buffer (n + k) (wire ++ (buffer.drop n).take k) rest
    else (wire, .returned)
  | .error e :: rest =>
    if n < buffer.length then
      match writeError e with
      | none => put buffer n wire rest
      | some x => (wire, .threw x)
    else (wire, .returned)

def putMessageData (buffer : List Byte) (answers : List WAns) : List Byte × WRes := put buffer 0 [] answers

/-! ### Reading -/

/-- After an error of `read`, data_socket.tpp 51-92. -/
inductive RAction where
  | throws (e : Exc)
  | retry
  /-- as if the connection had been closed -/
  | asEnd
  deriving DecidableEq, Repr

def readError : Errno → RAction
  | .EBADF | .EFAULT | .EINVAL | .ENXIO => .throws .domain
  | .EIO | .ENOBUFS | .ENOMEM => .throws .runtime
  | .EINTR | .ETIMEDOUT | .EAGAIN => .retry
  | .ECONNRESET | .ENOTCONN => .asEnd
  | _ => .throws .runtime

inductive GRes where
  /-- bytes read; `reset`: an error was taken for the end -/
  | got (bytes : List Byte) (reset : Bool)
  | threw (e : Exc)
  | waiting
  deriving DecidableEq, Repr

/-- `getMessageData(buffer, size, scanForEnd)` with a `scanForEnd` that never ends (as `recvMessage` uses it): `acc` are the bytes read so
far (`dataRead` of them); the peer has sent `stream`.  Result, bytes not yet read, answers not yet used. -/
def getLoop (size : Nat) (acc stream : List Byte) : List RAns → GRes × List Byte × List RAns
  | [] => if acc.length < size then (.waiting, stream, []) else (.got acc false, stream, [])
  | .data k :: rest =>
    if acc.length < size then
      let k := min (max k 1) (min (size - acc.length) stream.length)
      -- `get == 0`: break
      if k = 0 then (.got acc false, stream, rest)
      else getLoop size (acc ++ stream.take k) (stream.drop k) rest
    else (.got acc false, stream, .data k :: rest)
  | .error e :: rest =>
    if acc.length < size then
      match readError e with
      | .throws x => (.threw x, stream, rest)
      | .retry => getLoop size acc stream rest
      | .asEnd => (.got acc true, stream, rest)
    else (.got acc false, stream, .error e :: rest)

/-- A `std::string`: content and capacity. -/
structure Str where
  content : List Byte
  cap : Nat
  deriving DecidableEq, Repr

/-- `resize(n)` for `n ≤ capacity`: the content is cut or filled with 0. -/
def Str.resize (s : Str) (n : Nat) : Str := { s with content := s.content.take n ++ List.replicate (n - s.content.length) 0 }

inductive MRes where
  | message (s : Str) (reset : Bool)
  | threw (e : Exc) (s : Str)
  | waiting
  /-- `dataMax` or the number of bytes to read wraps around (out of bounds) -/
  | outOfBounds
  deriving DecidableEq, Repr

/-- Storing bytes at an offset of the string (the buffer passed to `getMessageData`). -/
def store (content : List Byte) (off : Nat) (bytes : List Byte) : List Byte :=
  content.take off ++ bytes ++ content.drop (off + bytes.length)

/-- The loop of `recvMessage`, protocol_simple.cpp 29-46; `grow cap n` is the capacity after `reserve(n)` (at least `n`, never less than
before; the rest is up to the library).  `broken` is a ghost: an error
has been taken for the end.  `fuel` bounds the number of turns: every theorem holds for every `fuel`; if it is used
up the call is still waiting.  The multiplication by 1.5 is done in `double` (exact below 2^52) and truncated. -/
def recvLoop (grow : Nat → Nat → Nat) : Nat → Str → Nat → Bool → List Byte → List RAns → MRes
  | 0, _, _, _, _, _ => .waiting
  | fuel + 1, message, dataRead, broken, stream, answers =>
    -- StringSizer constructor, string_resizer.h: resize to the capacity
    let message := message.resize message.cap
    -- 32: `dataMax = capacity() - 1`; 36: `dataMax - dataRead`
    if message.cap = 0 ∨ message.cap - 1 < dataRead then .outOfBounds
    else
      let size := message.cap - 1 - dataRead
      match getLoop size [] stream answers with
      | (.waiting, _, _) => .waiting
      -- the exception passes, the destructor of the StringSizer cuts the string to the size before this turn
      | (.threw e, _, _) => .threw e (message.resize dataRead)
      | (.got bytes reset, stream', answers') =>
        let message := { message with content := store message.content dataRead bytes }
        let dataRead := dataRead + bytes.length
        if bytes.length = 0 then .message (message.resize dataRead) (broken || reset)
        else
          let message := { message with cap := grow message.cap (message.cap * 3 / 2 + 10) }
          recvLoop grow fuel (message.resize dataRead) dataRead (broken || reset) stream' answers'

/-- `recvMessage`, protocol_simple.cpp 24-47; `clear()` keeps the capacity. -/
def recvMessage (grow : Nat → Nat → Nat) (fuel : Nat) (message : Str) (stream : List Byte) (answers : List RAns) : MRes :=
  recvLoop grow fuel { message with content := [] } 0 false stream answers

end Verif.Socket
