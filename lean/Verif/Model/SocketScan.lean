import Verif.Model.Socket

/-!
`DataSocket::getMessageData` in full (SOCK/include/klepsydra/socket_core/data_socket.tpp 36-106): with any `scanForEnd`, and with its first
test, which looks at the descriptor (38-41); and `ProtocolSimple::recvMessage` on top of it (SOCK/src/protocol_simple.cpp 26-47).
-/

namespace Verif.Socket

/-- The loop, 44-103: `acc` are the bytes in the buffer, `scan n` is what `scanForEnd(n)` answers when `n` bytes have been read (the user's function may look at
the buffer; for the loop only its answers matter). -/
def getScan (scan : List Byte → Bool) (size : Nat) (acc stream : List Byte) : List RAns → GRes × List Byte × List RAns
  | [] => if acc.length < size then (.waiting, stream, []) else (.got acc false, stream, [])
  | .data k :: rest =>
    if acc.length < size then
      let k := min (max k 1) (min (size - acc.length) stream.length)
      -- 94-97
      if k = 0 then (.got acc false, stream, rest)
      -- 98-102
      else if scan (acc ++ stream.take k) then (.got (acc ++ stream.take k) false, stream.drop k, rest)
      else getScan scan size (acc ++ stream.take k) (stream.drop k) rest
    else (.got acc false, stream, .data k :: rest)
  | .error e :: rest =>
    if acc.length < size then
      match readError e with
      | .throws x => (.threw x, stream, rest)
      | .retry => getScan scan size acc stream rest
      | .asEnd => (.got acc true, stream, rest)
    else (.got acc false, stream, .error e :: rest)

/-- `getMessageData` on descriptor `fd`, 36-106.  38-41: it refuses the descriptor 0 (a moved or closed object has -1). -/
def getMessageData (fd : Int) (scan : List Byte → Bool) (size : Nat) (stream : List Byte) (answers : List RAns) : GRes × List Byte × List RAns :=
  if fd = 0 then (.threw .logic, stream, answers) else getScan scan size [] stream answers

/-- `recvMessage` on descriptor `fd`, protocol_simple.cpp 26-47: the first call of `getMessageData` throws on descriptor 0, the string is then cut to the
bytes read, none; otherwise as `recvMessage`. -/
def recvMessageOn (fd : Int) (grow : Nat → Nat → Nat) (fuel : Nat) (message : Str) (stream : List Byte) (answers : List RAns) : MRes :=
  if fd = 0 then
    if message.cap = 0 then .outOfBounds
    else .threw .logic ((Str.resize { message with content := [] } message.cap).resize 0)
  else recvMessage grow fuel message stream answers

end Verif.Socket
