import Verif.Basic

/-!
Model of the in-memory middleware built on `moodycamel::ConcurrentQueue`: `ConcurrentQueuePublisher`
(MEM/include/klepsydra/mem_core/concurrent_queue_publisher.h) and `ConcurrentQueuePoller` (concurrent_queue_poller.h), wired by
`ConcurrentMiddlewareProvider` (concurrent_middleware_provider.h) with one producer token.

The queue is external; what is used of its documentation: the elements of one producer token form a FIFO; `try_enqueue(token, x)` either appends `x`
or refuses (when it may not allocate: whether it refuses is an arbitrary choice here, so the theorems hold for every capacity and block size);
`try_dequeue_from_producer(token, x)` takes the oldest element, or fails because the queue appeared empty (it may appear empty while it is being
filled: an arbitrary choice too); a producer token must not be used by two threads in `enqueue` operations at the same time.
Calls of the queue are single steps.  Time stamps and the object pool (C06) are left out.
-/

namespace Verif.CQ
open Verif

/-- Where a thread is inside `publish`. -/
inductive Pc (α : Type) where
  | idle
  /-- in the loop, about to call `try_enqueue` (concurrent_queue_publisher.h 78, 90); so many items removed so far -/
  | enq (x : α) (d : Nat)
  /-- refused, discarding mode: about to call `try_dequeue_from_producer` (80) -/
  | rem (x : α) (d : Nat)
  /-- enqueued, discarding mode: about to add to the statistics (85) -/
  | acct (d : Nat)
  deriving DecidableEq, Repr

structure St (α : Type) where
  /-- the queue of the producer token, oldest first -/
  q : List α
  pc : Nat → Pc α
  /-- event taken by the poller, not yet given to the emitter (concurrent_queue_poller.h 77-79) -/
  hand : List α
  /-- events given to the emitter, in order -/
  emitted : List α
  /-- `publicationStats.totalDiscardedEvents` -/
  stats : Nat
  /-- history: events enqueued, in order -/
  published : List α
  /-- history: events that left the queue, in order, with the publishing thread that removed them (`none`: the poller) -/
  taken : List (Option Nat × α)
  /-- history: threads that accounted for a removed item, once per item -/
  accd : List Nat

def St.init {α : Type} : St α := ⟨[], fun _ => .idle, [], [], 0, [], [], []⟩

inductive Act (α : Type) where
  /-- thread `t` calls `publish(x)` -/
  | publish (t : Nat) (x : α)
  /-- `try_enqueue` of thread `t` succeeds or not -/
  | enq (t : Nat) (ok : Bool)
  /-- `try_dequeue_from_producer` of thread `t`; `seen`: the queue does not appear empty -/
  | rem (t : Nat) (seen : Bool)
  | account (t : Nat)
  /-- the poller calls `try_dequeue_from_producer` -/
  | poll (seen : Bool)
  | emit
  deriving Repr

variable {α : Type}

/-- One step; `discard` is `discardItemsWhenFull`. -/
def step (discard : Bool) (s : St α) : Act α → Option (St α)
  -- internalPublish (106-112)
  | .publish t x => match s.pc t with
    | .idle => some { s with pc := upd s.pc t (.enq x 0) }
    | _ => none
  | .enq t ok => match s.pc t with
    | .enq x d =>
      if ok then some { s with
        q := s.q ++ [x], published := s.published ++ [x]
        pc := upd s.pc t (if discard then .acct d else .idle) }
      -- 79 or 91 (sleep)
      else some { s with pc := upd s.pc t (if discard then .rem x d else .enq x d) }
    | _ => none
  | .rem t seen => match s.pc t with
    | .rem x d => match seen, s.q with
      | true, y :: q => some { s with q := q, taken := s.taken ++ [(some t, y)], pc := upd s.pc t (.enq x (d + 1)) }
      | _, _ => some { s with pc := upd s.pc t (.enq x d) }
    | _ => none
  | .account t => match s.pc t with
    | .acct d => some { s with stats := s.stats + d, accd := s.accd ++ List.replicate d t, pc := upd s.pc t .idle }
    | _ => none
  -- takeEventFromQueue (74-83)
  | .poll seen => match s.hand, seen, s.q with
    | [], true, y :: q => some { s with q := q, hand := [y], taken := s.taken ++ [(none, y)] }
    | [], _, _ => some s
    | _, _, _ => none
  | .emit => match s.hand with
    | y :: _ => some { s with hand := [], emitted := s.emitted ++ [y] }
    | [] => none

def run (discard : Bool) (s : St α) : List (Act α) → Option (St α)
  | [] => some s
  | a :: as => match step discard s a with
    | none => none
    | some s' => run discard s' as

/-- Two threads are about to enqueue with the same producer token at the same time (undefined behaviour of the queue). -/
def St.TokenRace (s : St α) : Prop := ∃ t u x d y e, t ≠ u ∧ s.pc t = .enq x d ∧ s.pc u = .enq y e

/-- States reached without a race on the token before. -/
inductive Reach (discard : Bool) : St α → Prop
  | init : Reach discard .init
  | step {s s' : St α} (a : Act α) : Reach discard s → ¬ s.TokenRace → step discard s a = some s' → Reach discard s'

end Verif.CQ
