import Verif.Spec.BasicMiddleware

/-!
The in-memory middleware of Model/BasicMiddleware with the life of the delivering thread: `InMemoryQueuePoller::pollingLoop`
(/repo/core/modules/mem_mdlw/src/in_memory_queue_poller.cpp 59-65) calls `takeEventFromQueue` in a loop without any `catch`; it runs in a
`std::packaged_task` (in_memory_queue_poller.h 105, in_memory_queue_poller.cpp 26, 46), which puts an exception of a listener into a future nobody
asks, and the thread ends.  Two histories are added: what came into the queue and what left it.
-/

namespace Verif.MemP
open Verif.SQ

structure St (α : Type) where
  bm : BM.St α
  /-- the polling loop is running -/
  alive : Bool
  /-- history: events accepted by the queue -/
  came : List α
  /-- history: events that left the queue, taken by the poller (true) or discarded by `force_move_push` (false) -/
  left : List (α × Bool)

/-- A running middleware with bound `n` (basic_middleware_provider.h 58-79, `start`). -/
def St.init {α : Type} (n : Nat) : St α := ⟨BM.St.init n, true, [], []⟩

inductive Act (α : Type) where
  /-- anything Model/BasicMiddleware describes -/
  | bm (a : BM.Act α)
  /-- a listener throws while it gets the event in the hand of the poller -/
  | throw
  /-- `stop()` and `start()` (in_memory_queue_poller.cpp 20-49) after the thread has ended -/
  | restart

/-- Items that leave the queue with an event of the queue. -/
def outs {α : Type} : Ev α → List (α × Bool)
  | .popped _ x => [(x, true)]
  | .discarded x => [(x, false)]
  | _ => []

/-- Is it a step of the poller outside the queue? -/
def byPoller {α : Type} : BM.Act α → Bool
  | .poll .. => true
  | .emit => true
  | _ => false

/-- One step; `discard` is `_discardItemsWhenFull`. -/
def step {α : Type} (discard : Bool) (s : St α) : Act α → Option (St α)
  | .bm a =>
    if byPoller a = true ∧ s.alive = false then none
    else match BM.step discard s.bm a with
      | some (b, ev) => some { s with bm := b, came := s.came ++ putIn ev, left := s.left ++ ev.flatMap outs }
      | none => none
  | .throw =>
    if s.alive then
      match s.bm.hand with
      | x :: r => some { s with bm := { s.bm with hand := r, emitted := s.bm.emitted ++ [x] }, alive := false }
      | [] => none
    else none
  | .restart => if s.alive then none else some { s with alive := true }

/-- A sequence of steps. -/
def run {α : Type} (discard : Bool) : St α → List (Act α) → Option (St α)
  | s, [] => some s
  | s, a :: rest =>
    match step discard s a with
    | none => none
    | some s' => run discard s' rest

/-- Reachable states. -/
inductive Reach {α : Type} (discard : Bool) (n : Nat) : St α → Prop where
  | init : Reach discard n (St.init n)
  | step {s s' : St α} {a : Act α} : Reach discard n s → step discard s a = some s' → Reach discard n s'

end Verif.MemP
