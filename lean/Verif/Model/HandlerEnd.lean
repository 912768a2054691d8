import Verif.Basic
import Verif.Spec.HandlerEnd

/-!
The end of `CallbackHandler` and `MultiThreadCallbackHandler` (core/modules/core/include/klepsydra/core/callback_handler.h 105-109, 126-140, 222,
237-241) while threads deliver replies through `SafeEventEmitter` (safe_event_emitter.h 88-106, 113-140).  One handler, any number of delivering threads.

The destructor runs step by step: for `MultiThreadCallbackHandler` first the members of the derived class go (its mutex, 244), then the body of
`~CallbackHandler` removes the listener (109), then the members of the base class and the memory go.  `emitEvent` copies the listeners under the emitter's
mutex (121-132) and calls them without it (134-139).  Simplifications: the emitter's critical sections are single steps; what the handler does with a
reply (Model/Callback.lean) is one piece of code between `enter` and `leave`; a thread that did something undefined is taken out of the handler, so that further
consequences are not looked at; the data race on the virtual table pointer is ignored: a call that arrives when the derived part is gone runs the
function of the base class; the other members of `std::bind` and of the listener object are kept alive by the `shared_ptr` of the copy.
-/

namespace Verif.HandlerEnd
open Verif

/-- How far the destructor got. -/
inductive Phase where
  | alive
  /-- `~MultiThreadCallbackHandler` is done: the derived `_mutex` (244) does not exist any more -/
  | noMutex
  /-- `_subscriber->removeListener(_name)` (109) is done -/
  | unregistered
  /-- the members and the memory are gone -/
  | gone
  deriving DecidableEq, Repr

/-- A delivering thread. -/
inductive Pc where
  /-- does not hold the handler: outside `emitEvent`, or in one that found no handler -/
  | idle
  /-- has a copy of the listener (safe_event_emitter.h 126-131) and has not called it yet -/
  | pending (e : Nat)
  /-- at `lock_guard` (239) -/
  | wait (e : Nat)
  /-- in `CallbackHandler::onReplyReceived` (126-140), `locked`: through the derived class, with its mutex -/
  | inside (e : Nat) (locked : Bool)
  deriving DecidableEq, Repr

structure St where
  phase : Phase
  pc : Nat → Pc
  /-- the mutex of the derived class -/
  owner : Option Nat
  /-- deliveries begun -/
  next : Nat
  /-- history, newest first -/
  hist : List Ev
  /-- undefined behaviour: the object was used after its end, a locked mutex was destroyed or a destroyed one used -/
  bad : Bool

def St.init : St := ⟨.alive, fun _ => .idle, none, 0, [], false⟩

inductive Act where
  /-- the next step of the destructor -/
  | destroy
  /-- thread `t` begins a delivery: `emitEvent` up to the end of the critical section (121-132) -/
  | emit (t : Nat)
  /-- it calls the listener (135): `onReplyReceived` is entered -/
  | enter (t : Nat)
  /-- it gets the mutex (239) -/
  | lock (t : Nat)
  /-- it uses the vector for the last time and returns (131-140, 241) -/
  | leave (t : Nat)
  deriving DecidableEq, Repr

/-- The listener is registered. -/
def Phase.registered : Phase → Bool
  | .alive => true
  | .noMutex => true
  | _ => false

/-- `multi`: the handler is a `MultiThreadCallbackHandler`. -/
def step (multi : Bool) (s : St) : Act → Option St
  | .destroy =>
    match s.phase with
    | .alive =>
      if multi then some { s with phase := .noMutex, bad := s.bad || s.owner.isSome }
      else some { s with phase := .unregistered, hist := .removed :: s.hist }
    | .noMutex => some { s with phase := .unregistered, hist := .removed :: s.hist }
    | .unregistered => some { s with phase := .gone, hist := .freed :: s.hist }
    | .gone => none
  | .emit t =>
    match s.pc t with
    | .idle => some { s with
        next := s.next + 1
        hist := .start s.next :: s.hist
        pc := if s.phase.registered then upd s.pc t (.pending s.next) else s.pc }
    | _ => none
  | .enter t =>
    match s.pc t with
    | .pending e =>
      if s.phase = .gone then some { s with bad := true, pc := upd s.pc t .idle, hist := .enter e :: s.hist }
      else if multi ∧ s.phase = .alive then some { s with pc := upd s.pc t (.wait e) }
      else some { s with pc := upd s.pc t (.inside e false), hist := .enter e :: s.hist }
    | _ => none
  | .lock t =>
    match s.pc t with
    | .wait e =>
      if s.phase = .alive then
        match s.owner with
        | none => some { s with owner := some t, pc := upd s.pc t (.inside e true), hist := .enter e :: s.hist }
        | some _ => none
      else some { s with bad := true, pc := upd s.pc t .idle }
    | _ => none
  | .leave t =>
    match s.pc t with
    | .inside e locked => some { s with
        bad := s.bad || decide (s.phase = .gone) || (locked && decide (s.phase ≠ .alive))
        owner := if locked then none else s.owner
        pc := upd s.pc t .idle
        hist := .leave e :: s.hist }
    | _ => none

def run (multi : Bool) (s : St) : List Act → Option St
  | [] => some s
  | a :: as => match step multi s a with
    | none => none
    | some s' => run multi s' as

/-- Executions in which every step satisfies `P`. -/
inductive Reach (multi : Bool) (P : St → Act → Prop) : St → Prop where
  | init : Reach multi P St.init
  | step {s s' a} : Reach multi P s → P s a → step multi s a = some s' → Reach multi P s'

end Verif.HandlerEnd
