import Verif.Model.BaseSocket

/-!
Model of the constructors of `ServerSocket` and `ConnectSocket` and of `ServerSocket::accept` (SOCK/src/server_socket.cpp, SOCK/src/connect_socket.cpp):
which server a client reaches, what `accept` returns, what a failed constructor reports.

The operating system is modelled as far as it matters: a table of names, for each listening socket the queue of connections that wait to be accepted.  A name in
the file system stays when the server is closed (nobody calls `unlink`); a port is free again (the waiting time of TCP is left out).  Port 0 (any free port) and
connections that break before they are accepted are left out; `::accept` finds such a queue empty, which is the outcome `again` here.  The host of a
`ConnectSocket` is left out: one machine.  One operation of the system is one step.
-/

namespace Verif.Endpoint
open Verif Verif.Socket

/-- What the user asks for: `ServerSocket(int port)` or `ServerSocket(const std::string &path)`, the same for `ConnectSocket`. -/
inductive Addr where
  | port (n : Int)
  | path (bytes : List Nat)
  deriving DecidableEq, Repr

/-- What the system is asked for. -/
inductive Name where
  | port (n : Nat)
  | path (bytes : List Nat)
  deriving DecidableEq, Repr

/-- `sizeof(sun_path)` on Linux. -/
def sunPath : Nat := 108

/-- server_socket.cpp 30 / connect_socket.cpp 31: `htons` takes 16 bits of the `int`; 55 / 47: `strncpy` of at most `sizeof(sun_path) - 1` bytes, ended by a zero byte. -/
def Addr.name : Addr → Name
  | .port n => .port (n % 65536).toNat
  | .path b => .path ((b.takeWhile (· ≠ 0)).take (sunPath - 1))

/-- `maxConnectionBacklog` (server_socket.h 40); Linux queues one more. -/
def backlog : Nat := 5

/-- `FD_SETSIZE`: number of descriptors an `fd_set` holds. -/
def fdSetSize : Nat := 1024

structure Srv where
  /-- the listening socket -/
  tok : Nat
  fd : Nat
  deriving DecidableEq, Repr

/-- What callers of the API see. -/
inductive Out where
  | created (o : Nat)
  /-- the constructor threw because of `bind` -/
  | bindFailed (o : Nat)
  | connected (c : Nat)
  | refused (a : Addr)
  | accepted (o c : Nat)
  /-- "Timed out" -/
  | timedOut (o : Nat)
  /-- `accept` threw with the error `EAGAIN` -/
  | again (o : Nat)
  /-- a write outside the `fd_set` -/
  | undefined (o : Nat)
  deriving DecidableEq, Repr

structure St where
  /-- names in use and the listening socket they belong (or belonged) to -/
  bound : Name → Option Nat
  /-- server objects -/
  srv : Nat → Option Srv
  /-- listening sockets that are open -/
  live : Nat → Bool
  /-- connections waiting at a listening socket, oldest first -/
  queue : Nat → List Nat
  nextTok : Nat
  nextConn : Nat
  /-- ghost: the address a listening socket was created for -/
  asked : Nat → Option Addr
  /-- ghost: the address a connection was made to, and the listening socket reached -/
  conn : Nat → Option (Addr × Nat)
  /-- ghost: connections made to, accepted from a listening socket, oldest first -/
  made : Nat → List Nat
  acc : Nat → List Nat
  out : List Out

def St.init : St := ⟨fun _ => none, fun _ => none, fun _ => false, fun _ => [], 0, 0, fun _ => none, fun _ => none, fun _ => [], fun _ => [], []⟩

/-- What `::select` reports: the socket is ready, the time is over, or an error (a signal, a negative timeout). -/
inductive Sel where
  | ready
  | timeout
  | error
  deriving DecidableEq, Repr

inductive Act where
  /-- `ServerSocket(a)` as object `o`; the descriptor got is `fd` -/
  | server (o : Nat) (a : Addr) (fd : Nat)
  /-- the server object is closed or destroyed -/
  | close (o : Nat)
  /-- `ConnectSocket(a)` -/
  | connect (a : Addr)
  | accept (o : Nat) (sel : Sel)
  deriving DecidableEq, Repr

/-- Is the name kept when the socket is closed? -/
def Name.stays : Name → Bool
  | .port _ => false
  | .path _ => true

def step (s : St) : Act → Option St
  | .server o a fd =>
    if s.srv o = none ∧ a.name ≠ .port 0 then
      match s.bound a.name with
      | some _ => some { s with out := s.out ++ [.bindFailed o] }  -- 36-40, 60-64
      | none =>
        some { s with
          bound := upd s.bound a.name (some s.nextTok), srv := upd s.srv o (some ⟨s.nextTok, fd⟩), live := upd s.live s.nextTok true,
          asked := upd s.asked s.nextTok (some a), nextTok := s.nextTok + 1, out := s.out ++ [.created o] }
    else none
  | .close o =>
    match s.srv o with
    | some v => some { s with
        srv := upd s.srv o none, live := upd s.live v.tok false, queue := upd s.queue v.tok [],
        bound := fun n => if s.bound n = some v.tok ∧ n.stays = false then none else s.bound n }
    | none => none
  | .connect a =>
    match s.bound a.name with
    | some k =>
      if s.live k then
        if (s.queue k).length ≤ backlog then
          some { s with
            queue := upd s.queue k (s.queue k ++ [s.nextConn]), conn := upd s.conn s.nextConn (some (a, k)),
            made := upd s.made k (s.made k ++ [s.nextConn]), nextConn := s.nextConn + 1, out := s.out ++ [.connected s.nextConn] }
        else none  -- it waits
      else some { s with out := s.out ++ [.refused a] }
    | none => some { s with out := s.out ++ [.refused a] }
  | .accept o sel =>
    match s.srv o with
    | some v =>
      -- 88-89
      if fdSetSize ≤ v.fd then some { s with out := s.out ++ [.undefined o] }
      else
        -- 92: after an error `readfds` is unchanged and still contains the socket
        match sel, s.queue v.tok with
        | .ready, [] => none
        | .timeout, _ :: _ => none
        | .timeout, [] => some { s with out := s.out ++ [.timedOut o] }  -- 94-97
        | _, c :: rest => some { s with queue := upd s.queue v.tok rest, acc := upd s.acc v.tok (s.acc v.tok ++ [c]), out := s.out ++ [.accepted o c] }  -- 101-107
        | .error, [] => some { s with out := s.out ++ [.again o] }  -- 102-105: the socket does not block (34, 58)
    | none => none

def run (s : St) : List Act → Option St
  | [] => some s
  | a :: as => (step s a).bind (fun s' => run s' as)

inductive Reach : St → Prop
  | init : Reach .init
  | step {s s' a} : Reach s → step s a = some s' → Reach s'

/-! ### What a failed constructor reports -/

/-- What the exception says: that `bind`, `listen` or `connect` failed and how, or that `close` failed (with the kind of exception). -/
inductive Report where
  | call (e : Errno)
  | close (x : Exc)
  deriving DecidableEq, Repr

/-- server_socket.cpp 36-46, 60-70, connect_socket.cpp 34-38, 49-53: the call has failed with `e`; `close()` (base_socket.cpp 53-85) closes the descriptor, which
succeeds, and leaves `errno` as it is; if that does not make it throw, it goes round its loop and calls `::close` on a descriptor that is closed (`EBADF`); then the message is
built from `errno`. -/
def failReport (e : Errno) : Report :=
  match closeError e with
  | some x => .close x
  | none => .call .EBADF

end Verif.Endpoint
