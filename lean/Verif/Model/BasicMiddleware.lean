import Verif.Model.SafeQueue

/-!
Model of the in-memory middleware built on `SafeQueue`: `BasicPublisher`
(MEM/include/klepsydra/mem_core/basic_publisher.h) and `SafeQueuePoller`
(MEM/include/klepsydra/mem_core/safe_queue_poller.h).

Any number of threads call `publish`; one poller thread (number `poller`) takes events and gives them to the event
emitter.  Events are abstract values (time stamps and the object pool are left out, see C06 for the pool).
-/

namespace Verif.BM
open Verif.SQ

/-- Number of the poller thread. -/
def poller : Nat := 0

structure St (α : Type) where
  /-- `_internalQueue` -/
  sq : SQ.St α
  /-- `publicationStats.totalDiscardedEvents` -/
  discarded : Nat
  /-- result of `force_move_push` of a thread that has not yet added it to the statistics -/
  pend : List (Nat × Nat)
  /-- event taken by the poller, not yet given to the emitter -/
  hand : List α
  /-- events given to the emitter, in order -/
  emitted : List α

/-- A publisher and a poller on a queue with bound `n`
(the constructor of `BasicMiddlewareProvider`, basic_middleware_provider.h, creates queue, publisher and poller). -/
def St.init {α : Type} (n : Nat) : St α := ⟨SQ.St.init n, 0, [], [], []⟩

/-- Scheduler choices. -/
inductive Act (α : Type) where
  /-- thread `t` calls `publish(x)` -/
  | publish (t : Nat) (x : α) (pick : Nat)
  /-- thread `t` adds the number of discarded items to the statistics -/
  | account (t : Nat)
  /-- the poller calls `timeout_move_pop` -/
  | poll (timeout : Nat) (pick : Nat)
  /-- the poller gives its event to the emitter -/
  | emit
  /-- wake-ups inside the queue -/
  | wake (a : SQ.Act α)

/-- Effect of queue events on the threads around the queue: `force_move_push` returned `n` (basic_publisher.h 75),
`timeout_move_pop` returned an event (safe_queue_poller.h 70). -/
def absorb {α : Type} (s : St α) : List (Ev α) → St α
  | [] => s
  | .forced t _ n :: l => absorb { s with pend := s.pend ++ [(t, n)] } l
  | .popped _ x :: l => absorb { s with hand := s.hand ++ [x] } l
  | _ :: l => absorb s l

/-- Is this a wake-up choice of the queue? -/
def isWake {α : Type} : SQ.Act α → Bool
  | .call .. => false
  | .setMax _ => false
  | _ => true

/-- One step; `discard` is `_discardItemsWhenFull`. `none`: not possible or undefined behaviour of the queue.
The log of the queue is returned for the specification. -/
def step {α : Type} (discard : Bool) (s : St α) : Act α → Option (St α × List (Ev α))
  -- internalPublish (95-101) and the two `_internalQueuePush` functions (73-82)
  | .publish t x pick =>
    if t = poller ∨ t ∈ s.pend.map (·.1) then none
    else match SQ.step s.sq (.call t (if discard then .forcePush x else .push x) pick) with
      | .ok q ev => some (absorb { s with sq := q } ev, ev)
      | _ => none
  -- `totalDiscardedEvents += discardedItems` (76)
  | .account t =>
    match s.pend.find? (·.1 = t) with
    | none => none
    | some e => some ({ s with discarded := s.discarded + e.2, pend := s.pend.erase e }, [])
  -- takeEventFromQueue (safe_queue_poller.h 67-70)
  | .poll timeout pick =>
    if s.hand ≠ [] then none
    else match SQ.step s.sq (.call poller (.timedPop timeout) pick) with
      | .ok q ev => some (absorb { s with sq := q } ev, ev)
      | _ => none
  -- emitEvent (safe_queue_poller.h 71-73)
  | .emit =>
    match s.hand with
    | [] => none
    | x :: r => some ({ s with hand := r, emitted := s.emitted ++ [x] }, [])
  | .wake a =>
    if isWake a then
      match SQ.step s.sq a with
      | .ok q ev => some (absorb { s with sq := q } ev, ev)
      | _ => none
    else none

/-- Executions with the log of queue events. -/
def run {α : Type} (discard : Bool) : St α → List (Act α) → Option (St α × List (Ev α))
  | s, [] => some (s, [])
  | s, a :: rest =>
    match step discard s a with
    | none => none
    | some (s', ev) =>
      match run discard s' rest with
      | none => none
      | some (s'', log) => some (s'', ev ++ log)

end Verif.BM
