import Verif.Spec.Zmq

/-!
Model of `kpsr::zmq_mdlw::ZMQPoller` (ZMQ/zmq_poller.h) with the polling loops of its three subclasses (binary_zmq_poller.h 55-73,
json_zmq_poller.h 52-69, void_caster_zmq_poller.h 50-71), and of `FromZmqChannel` (from_zmq_middleware_provider.h 49-105).

ZeroMQ is external.  It is represented by the queue of frames that `recv` returns one by one; a message adds all its frames at once.
`zmq::poll` returning -1 ends the thread, like `stop`.
-/

namespace Verif.Zmq
open Verif

/-- The polling thread. -/
inductive PollPc (F β : Type) where
  | top
  | haveTopic (t : F)
  | have2 (t c : F)
  /-- in the function, the mutex held -/
  | calling (t c : F) (f : β)
  /-- the function called `registerToTopic` or `unregisterFromTopic` of the same poller -/
  | relock
  | exited
  deriving DecidableEq, Repr

/-- A client thread. -/
inductive CPc (F β : Type) where
  | idle
  | reg (t : F) (f : β)
  | unreg (t : F)
  deriving DecidableEq, Repr

structure St (F β : Type) where
  frames : List F
  /-- `_functionTopicMap` -/
  map : F → Option β
  /-- `mutex` is held (only the polling thread holds it across steps) -/
  locked : Bool
  running : Bool
  poll : PollPc F β
  client : Nat → CPc F β
  /-- ghost: history -/
  hist : List (Ev F β)
  /-- ghost: all frames that arrived -/
  arrived : List F

def St.init {F β : Type} : St F β := ⟨[], fun _ => none, false, true, .top, fun _ => .idle, [], []⟩

inductive Act (F β : Type) where
  /-- a message arrives -/
  | arrive (parts : List F)
  | recvTopic
  | recvContent
  | execute
  | return
  | reenter
  /-- the function throws -/
  | throw
  | stop
  /-- `start` after the thread has ended and `stop` has returned -/
  | start
  | exit
  | callReg (u : Nat) (t : F) (f : β)
  | callUnreg (u : Nat) (t : F)
  | doReg (u : Nat)
  | doUnreg (u : Nat)

variable {F β : Type} [DecidableEq F]

def step (s : St F β) : Act F β → Option (St F β)
  | .arrive ps => some { s with frames := s.frames ++ ps, arrived := s.arrived ++ ps }
  -- `while (_running) { … _subscriber.recv(topicMsg);` json_zmq_poller.h 54-62
  | .recvTopic =>
    match s.poll, s.frames with
    | .top, t :: r => if s.running then some { s with poll := .haveTopic t, frames := r } else none
    | _, _ => none
  -- `_subscriber.recv(content);` json_zmq_poller.h 63
  | .recvContent =>
    match s.poll, s.frames with
    | .haveTopic t, c :: r => some { s with poll := .have2 t c, frames := r }
    | _, _ => none
  -- `executeFunction`, zmq_poller.h 134-141: lock, look up, call if found
  | .execute =>
    match s.poll with
    | .have2 t c =>
      if s.locked then none
      else match s.map t with
        | some f => some { s with poll := .calling t c f, locked := true, hist := s.hist ++ [.dispatched t c (some f)] }
        | none => some { s with poll := .top, hist := s.hist ++ [.dispatched t c none] }
    | _ => none
  -- the function returns, the lock guard unlocks
  | .return =>
    match s.poll with
    | .calling _ _ _ => some { s with poll := .top, locked := false }
    | _ => none
  | .reenter =>
    match s.poll with
    | .calling _ _ _ => some { s with poll := .relock }
    | _ => none
  -- the lock guard unlocks; the exception leaves `poll` and `pollingLoop` and is kept by the `packaged_task` (zmq_poller.h 58, 72), whose
  -- future nobody reads: the thread ends, `_running` and `_started` stay true
  | .throw =>
    match s.poll with
    | .calling _ _ _ => some { s with poll := .exited, locked := false }
    | _ => none
  -- `start`, zmq_poller.h 66-82: without `stop` it returns at once, as `_started` is true
  | .start =>
    match s.poll with
    | .exited => if s.running then none else some { s with poll := .top, running := true }
    | _ => none
  -- `_running.store(false)`, zmq_poller.h 92 (join is the caller's wait for `exited`)
  | .stop => some { s with running := false }
  | .exit =>
    match s.poll with
    | .top => if s.running then none else some { s with poll := .exited }
    | _ => none
  | .callReg u t f =>
    match s.client u with
    | .idle => some { s with client := upd s.client u (.reg t f) }
    | _ => none
  | .callUnreg u t =>
    match s.client u with
    | .idle => some { s with client := upd s.client u (.unreg t) }
    | _ => none
  -- `registerToTopic`, zmq_poller.h 113-117 (the critical section in one step)
  | .doReg u =>
    match s.client u with
    | .reg t f =>
      if s.locked then none
      else some { s with client := upd s.client u .idle, map := upd s.map t (some f), hist := s.hist ++ [.registered t f] }
    | _ => none
  -- `unregisterFromTopic`, zmq_poller.h 123-127
  | .doUnreg u =>
    match s.client u with
    | .unreg t =>
      if s.locked then none
      else some { s with client := upd s.client u .idle, map := upd s.map t none, hist := s.hist ++ [.unregistered t] }
    | _ => none

inductive Reach : St F β → Prop where
  | init : Reach St.init
  | step {s s'} (a : Act F β) (h : Reach s) (hs : step s a = some s') : Reach s'

def run (s : St F β) : List (Act F β) → Option (St F β)
  | [] => some s
  | a :: as => match step s a with
    | none => none
    | some s' => run s' as

/-! ### FromZmqChannel, one thread -/

/-- Operations on a `FromZmqChannel`, and the arrival of a message. -/
inductive COp (F β : Type) where
  /-- `registerToTopic(topic, publisher)` -/
  | reg (t : F) (p : β)
  | unreg (t : F)
  | msg (t c : F)
  deriving DecidableEq, Repr

structure CSt (F β : Type) where
  /-- `_subscriberMap` has the topic -/
  sub : F → Bool
  /-- `_functionTopicMap` of the poller, by publisher -/
  map : F → Option β
  /-- messages published: publisher, content -/
  out : List (β × F)

def CSt.init {F β : Type} : CSt F β := ⟨fun _ => false, fun _ => none, []⟩

/-- `registerToTopic` (from_zmq_middleware_provider.h 67-83), `unregisterFromTopic` (89), and dispatch of a message. -/
def cstep (s : CSt F β) : COp F β → CSt F β
  | .reg t p => if s.sub t then s else { s with map := upd s.map t (some p), sub := upd s.sub t true }
  | .unreg t => { s with map := upd s.map t none }
  | .msg t c => match s.map t with
    | some p => { s with out := s.out ++ [(p, c)] }
    | none => s

def crun (ops : List (COp F β)) : CSt F β := ops.foldl cstep CSt.init

end Verif.Zmq
