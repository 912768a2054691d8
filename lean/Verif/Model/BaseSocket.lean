import Verif.Spec.Socket

/-!
Model of `kpsr::socket_mdlw::BaseSocket` (SOCK/include/klepsydra/socket_core/base_socket.h, SOCK/src/base_socket.cpp): socket objects, the
table of descriptors of the process and `errno`.  `ServerSocket`, `ConnectSocket` and `DataSocket` (socket constructors,
`accept`) only add other ways to obtain the descriptor and, when `bind`, `listen` or `connect` fails, call `close()` and are then destroyed.

Every `socket`/`accept`/`open` of the process is given a fresh number, its token; a descriptor number is used again after it has been
closed.  One object is not used by two threads at the same time (calls on it are sequential); different objects and the rest of the process run
concurrently, in particular between two calls of `::close` made by one `close()`.  `errno` is one variable; it is thread local in the
program, so the runs of the model include those of every thread whose own system calls precede.
-/

namespace Verif.Socket

/-- A `BaseSocket`: `socketId` (`none` is -1); ghost: the token of the descriptor it was given. -/
structure Obj where
  id : Option Nat
  tok : Nat
  deriving DecidableEq, Repr

inductive Pc where
  | idle
  /-- in the loop of `close`, called by the user (`false`) or by the destructor (`true`) -/
  | closing (dtor : Bool)
  deriving DecidableEq, Repr

inductive Outcome where
  | returned
  | threw (e : Exc)
  deriving DecidableEq, Repr

structure St where
  /-- open descriptors of the process with their tokens -/
  table : Nat → Option Nat
  /-- tokens given so far: those below -/
  next : Nat
  /-- ghost: tokens opened by other code of the process -/
  foreign : Nat → Bool
  /-- existing socket objects -/
  obj : Nat → Option Obj
  pc : Nat → Pc
  errno : Errno
  /-- result of the last `close()` of the user on the object -/
  result : Nat → Option Outcome
  /-- ghost: some `::close` of an object has closed a descriptor that was not the one given to the object -/
  stolen : Bool

def St.init (e : Errno) : St := ⟨fun _ => none, 0, fun _ => false, fun _ => none, fun _ => .idle, e, fun _ => none, false⟩

inductive Act where
  /-- a constructor that gets descriptor `fd` from `socket` or `accept`, base_socket.cpp 22-29 -/
  | construct (o fd : Nat)
  /-- the rest of the process opens, closes something of its own -/
  | otherOpen (fd : Nat)
  | otherClose (fd : Nat)
  /-- some system call has failed and left this in `errno` -/
  | setErrno (e : Errno)
  /-- move construction of `o` from `p`, 93-97 -/
  | moveConstruct (o p : Nat)
  /-- `swap` and move assignment, 87-91, 99-104 -/
  | swap (o p : Nat)
  /-- the user calls `close()`, 53-60 -/
  | callClose (o : Nat)
  /-- the destructor begins, 31-40 -/
  | destroy (o : Nat)
  /-- one `::close(socketId)` of the loop, 61-83, with the result 0 (`none`) or -1 and an error -/
  | sysClose (o : Nat) (err : Option Errno)
  deriving DecidableEq, Repr

/-- The exception for `errno`, 66-82; `none` is another turn of the loop. -/
def closeError : Errno → Option Exc
  | .EBADF => some .domain
  | .EIO => some .runtime
  | .EINTR => none
  | _ => some .runtime

/-- Leaving `close()` of the object `o`, whose state is `ob`, with a result; called by the destructor, the object ceases to exist and exceptions
are swallowed, 42-50. -/
def St.leave (s : St) (o : Nat) (dtor : Bool) (ob : Obj) (r : Outcome) : St :=
  { s with
    pc := upd s.pc o .idle
    obj := upd s.obj o (if dtor then none else some ob)
    result := if dtor then s.result else upd s.result o (some r) }

/-- What the kernel does on `::close(fd)` of an open descriptor: it is released, whatever is returned (Linux). -/
def St.release (s : St) (fd tok t : Nat) : St :=
  { s with table := upd s.table fd none, stolen := s.stolen || decide (t ≠ tok) }

def step (s : St) : Act → Option St
  | .construct o fd =>
    if s.obj o = none ∧ s.table fd = none then
      some { s with table := upd s.table fd (some s.next), next := s.next + 1, obj := upd s.obj o (some ⟨some fd, s.next⟩),
                    pc := upd s.pc o .idle, result := upd s.result o none }
    else none
  | .otherOpen fd =>
    if s.table fd = none then
      some { s with table := upd s.table fd (some s.next), next := s.next + 1, foreign := upd s.foreign s.next true }
    else none
  | .otherClose fd =>
    match s.table fd with
    | some t => if s.foreign t then some { s with table := upd s.table fd none } else none
    | none => none
  | .setErrno e => some { s with errno := e }
  | .moveConstruct o p =>
    match s.obj o, s.obj p with
    | none, some q =>
      if s.pc p = .idle then
        some { s with obj := upd (upd s.obj o (some q)) p (some { q with id := none }), pc := upd s.pc o .idle,
                      result := upd s.result o none }
      else none
    | _, _ => none
  | .swap o p =>
    match s.obj o, s.obj p with
    | some a, some b =>
      if s.pc o = .idle ∧ s.pc p = .idle then some { s with obj := upd (upd s.obj o (some b)) p (some a) } else none
    | _, _ => none
  | .callClose o =>
    match s.obj o with
    | some ob =>
      if s.pc o = .idle then
        match ob.id with
        | none => some { s with result := upd s.result o (some (.threw .logic)) }
        | some _ => some { s with pc := upd s.pc o (.closing false) }
      else none
    | none => none
  | .destroy o =>
    match s.obj o with
    | some ob =>
      if s.pc o = .idle then
        match ob.id with
        | none => some { s with obj := upd s.obj o none }
        | some _ => some { s with pc := upd s.pc o (.closing true) }
      else none
    | none => none
  | .sysClose o err =>
    match s.obj o, s.pc o with
    | some ⟨some fd, tok⟩, .closing d =>
      match s.table fd, err with
      | some t, none =>
        -- 62-63: the result 0 is not `invalidSocketId`: the switch looks at `errno`, which the successful call has not set
        match closeError s.errno with
        | none => some (s.release fd tok t)
        | some x => some ((s.release fd tok t).leave o d ⟨some fd, tok⟩ (.threw x))
      | some t, some e =>
        -- the result is -1: break, 64, `socketId = invalidSocketId`, 84
        some ({ s.release fd tok t with errno := e }.leave o d ⟨none, tok⟩ .returned)
      | none, some .EBADF => some ({ s with errno := .EBADF }.leave o d ⟨none, tok⟩ .returned)
      | none, _ => none
    | _, _ => none

def run (s : St) : List Act → Option St
  | [] => some s
  | a :: as => (step s a).bind (fun s' => run s' as)

inductive Reach (e : Errno) : St → Prop
  | init : Reach e (St.init e)
  | step {s s' a} : Reach e s → step s a = some s' → Reach e s'

end Verif.Socket
