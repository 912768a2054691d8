import Verif.Model.ConcurrentQueue

/-!
The middleware of Model/ConcurrentQueue with the life of the delivering thread: `ConcurrentQueuePoller` is an `InMemoryQueuePoller`, whose
`pollingLoop` (/repo/core/modules/mem_mdlw/src/in_memory_queue_poller.cpp 59-65) calls `takeEventFromQueue` in a loop without any `catch`; it runs
in a `std::packaged_task` (in_memory_queue_poller.cpp 26, 46), which puts an exception of a listener into a future nobody asks, and the thread ends.
-/

namespace Verif.CqP
open Verif

structure St (α : Type) where
  cq : CQ.St α
  /-- the polling loop is running -/
  alive : Bool

/-- A running middleware (concurrent_middleware_provider.h, `start`). -/
def St.init {α : Type} : St α := ⟨CQ.St.init, true⟩

inductive Act (α : Type) where
  /-- anything Model/ConcurrentQueue describes -/
  | cq (a : CQ.Act α)
  /-- a listener throws while it gets the event in the hand of the poller (concurrent_queue_poller.h 79) -/
  | throw
  /-- `stop()` and `start()` (in_memory_queue_poller.cpp 20-49) after the thread has ended -/
  | restart

/-- Is it a step of the polling thread? -/
def byPoller {α : Type} : CQ.Act α → Bool
  | .poll _ => true
  | .emit => true
  | _ => false

/-- One step; `discard` is `_discardItemsWhenFull`. -/
def step {α : Type} (discard : Bool) (s : St α) : Act α → Option (St α)
  | .cq a =>
    if byPoller a = true ∧ s.alive = false then none
    else match CQ.step discard s.cq a with
      | some c => some { s with cq := c }
      | none => none
  | .throw =>
    if s.alive then
      match s.cq.hand with
      | y :: _ => some ⟨{ s.cq with hand := [], emitted := s.cq.emitted ++ [y] }, false⟩
      | [] => none
    else none
  | .restart => if s.alive then none else some { s with alive := true }

/-- A sequence of steps. -/
def run {α : Type} (discard : Bool) : St α → List (Act α) → Option (St α)
  | s, [] => some s
  | s, a :: rest =>
    match step discard s a with
    | none => none
    | some s' => run discard s' rest

/-- States reached without a race on the producer token before. -/
inductive Reach {α : Type} (discard : Bool) : St α → Prop where
  | init : Reach discard St.init
  | step {s s' : St α} {a : Act α} : Reach discard s → ¬ s.cq.TokenRace → step discard s a = some s' → Reach discard s'

end Verif.CqP
