import Verif.Basic

/-! What the operating system does on a stream socket: the answers to `write` and `read`. -/

namespace Verif.Socket

abbrev Byte := UInt8

/-- `errno` values the code distinguishes. -/
inductive Errno where
  | EINVAL | EBADF | ECONNRESET | ENXIO | EPIPE | EDQUOT | EFBIG | EIO | ENETDOWN | ENETUNREACH | ENOSPC | EINTR | EAGAIN
  | EFAULT | ENOBUFS | ENOMEM | ETIMEDOUT | ENOTCONN
  | other (n : Nat)
  deriving DecidableEq, Repr

/-- Answer of `write`: so many of the bytes offered were accepted (never more than offered), or an error. -/
inductive WAns where
  | accepted (n : Nat)
  | error (e : Errno)
  deriving DecidableEq, Repr

/-- Answer of `read` as long as the peer has sent bytes or keeps the connection open: up to `n` bytes (at least one, at most as many as
asked for and as have been sent), or an error.  If no bytes are left, the peer having closed, `data` stands for the end (0). -/
inductive RAns where
  | data (n : Nat)
  | error (e : Errno)
  deriving DecidableEq, Repr

/-- Kinds of exceptions. -/
inductive Exc where
  | domain
  | runtime
  | logic
  deriving DecidableEq, Repr

end Verif.Socket
