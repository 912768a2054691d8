import Verif.Model.ObjectPool

/-!
Model of the whole path of an event, from `publish` to the listener and back into the pool:
`ObjectPoolPublisher` (CORE/object_pool_publisher.h) on a `SmartObjectPool`, the queue of the middleware, the thread that
takes events out of it, the listeners, and the reference counts of the `shared_ptr`s that travel along.

`P` publisher threads use one publisher object; one thread delivers.  The middleware differs in what it does with a full
queue (`Policy`).  The queue is the list of its events (that the queues of the code behave like this is C07, C08, C13, C22,
C30, C63).  The pool is the one of `Model/ObjectPool.lean`.  A `shared_ptr` that is copied within one thread and dropped
again before the thread does anything else is counted once.
-/

namespace Verif.Pipe
open Verif.Pool

/-- What `internalPublish(std::shared_ptr<const T>)` does when the queue is full: wait
(MEM/include/klepsydra/mem_core/basic_publisher.h 79-82, concurrent_queue_publisher.h 87-92), drop the oldest events
(basic_publisher.h 73-77, concurrent_queue_publisher.h 75-86), or drop the new event
(HP/event_loop_publisher.h 116-128). -/
inductive Policy where
  | block
  | dropOldest
  | refuse
  deriving DecidableEq, Repr

/-- A call of the publisher: `publish(e)` or `processAndPublish(f)`. -/
inductive Call (T : Type) where
  | publish (e : T)
  | process (f : T → T)

/-- Constructor arguments: those of the publisher, the size of the queue, the policy, the number of publisher threads, and
the number of events that listeners keep at most. -/
structure Cfg (T : Type) where
  pub : Pool.Cfg T
  bound : Nat
  policy : Policy
  threads : Nat
  maxKept : Nat

/-- Where a publisher thread is.  `got`: it has an object and has not yet written the event into it; `made`: the event is
written (publication number `k`) and not yet in the queue; `done`: it still holds its own `shared_ptr`. -/
inductive Pc (T : Type) where
  | idle
  | got (o : Nat) (c : Call T)
  | made (o k : Nat)
  | done (o : Nat)

/-- The object a publisher thread holds a `shared_ptr` to. -/
def Pc.obj {T : Type} : Pc T → Option Nat
  | .idle => none
  | .got o _ => some o
  | .made o _ => some o
  | .done o => some o

structure St (T : Type) where
  /-- `_objectPool` (object_pool_publisher.h 60-63) -/
  pool : Option Pool
  content : Nat → T
  /-- `use_count` of the `shared_ptr`s to an object -/
  rc : Nat → Nat
  /-- next unused object number -/
  next : Nat
  /-- `publicationStats._totalEventAllocations` -/
  allocs : Nat
  pc : Nat → Pc T
  /-- events in the queue, oldest first, with the number of the publication -/
  queue : List (Nat × Nat)
  /-- the event the delivering thread holds (at most one) -/
  hand : List (Nat × Nat)
  /-- `shared_ptr`s that listeners keep (`registerSharedPtrListener`) -/
  kept : List (Nat × Nat)
  /-- events dropped because the queue was full -/
  discarded : Nat
  /-- history: publications with the value that was written, in the order of writing -/
  pubs : List (Call T × T)
  /-- history: what listeners read, with the number of the publication -/
  reads : List (Nat × T)
  /-- history: publications in the order in which they came into the queue -/
  order : List Nat
  /-- history: publications taken for delivery -/
  taken : List Nat
  /-- history: publications that were dropped or refused -/
  lost : List Nat

/-- Constructors (object_pool_publisher.h 60-64, basic_middleware_provider.h 58-79). -/
def St.init {T : Type} (c : Cfg T) : St T where
  pool := if c.pub.poolSize = 0 then none else some (Pool.init c.pub.poolSize)
  content := fun _ => c.pub.initFun c.pub.dflt
  rc := fun _ => 0
  next := c.pub.poolSize
  allocs := c.pub.poolSize
  pc := fun _ => .idle
  queue := []
  hand := []
  kept := []
  discarded := 0
  pubs := []
  reads := []
  order := []
  taken := []
  lost := []

/-- A new object outside the pool (object_pool_publisher.h 89-91, 103-104, 114-115, 119-121, 127-128); `publish` runs the
initializer here, `processAndPublish` later. -/
def fresh {T : Type} (c : Cfg T) (s : St T) (t : Nat) (call : Call T) : St T :=
  { s with content := upd s.content s.next (match call with
             | .publish _ => c.pub.initFun c.pub.dflt
             | .process _ => c.pub.dflt),
           rc := upd s.rc s.next 1, next := s.next + 1, allocs := s.allocs + 1,
           pc := upd s.pc t (.got s.next call) }

/-- The value the call writes into an object with content `d`: the cloner (object_pool_publisher.h 84, 92, 115, 122), or
the initializer and the function of the caller (106, 129, 154). -/
def Call.value {T : Type} (c : Cfg T) (d : T) : Call T → T
  | .publish e => c.pub.clone e d
  | .process f => f (c.pub.initFun d)

/-- A `shared_ptr` to `o` is destroyed: the last one gives a pooled object back (smart_object_pool.h 50-58), another object
is freed. -/
def unref {T : Type} (c : Cfg T) (s : St T) (o : Nat) : St T :=
  { s with rc := upd s.rc o (s.rc o - 1),
           pool := if s.rc o = 1 ∧ o < c.pub.poolSize then s.pool.map (·.release o) else s.pool }

/-- Is there room for one more event?  The blocking push waits for `size() < max` (MEM/include/klepsydra/mem_core/safe_queue.h 121-131); the
discarding push takes bound 0 as unbounded (safe_queue.h 192-206); in the ring of the event loop the event being
delivered still occupies its slot (event_loop_event_handler.h 81-84: the slot is reset after the listeners ran). -/
def room {T : Type} (c : Cfg T) (s : St T) : Bool :=
  match c.policy with
  | .block => s.queue.length < c.bound
  | .dropOldest => c.bound = 0 ∨ s.queue.length < c.bound
  | .refuse => s.queue.length + s.hand.length < c.bound

/-- Scheduler choices. -/
inductive Act (T : Type) where
  /-- thread `t` calls the publisher and obtains an object -/
  | acquire (t : Nat) (call : Call T)
  /-- thread `t` writes the event into its object -/
  | write (t : Nat)
  /-- the event of thread `t` goes into the queue -/
  | push (t : Nat)
  /-- thread `t` removes the oldest event from a full queue -/
  | dropOld (t : Nat)
  /-- the event of thread `t` is not accepted -/
  | refuse (t : Nat)
  /-- the call of thread `t` returns -/
  | finish (t : Nat)
  /-- the delivering thread takes the oldest event -/
  | take
  /-- a listener reads the event being delivered -/
  | read
  /-- a listener keeps the `shared_ptr` it is called with -/
  | keep
  /-- somebody reads the `i`-th kept event -/
  | readKept (i : Nat)
  /-- somebody drops the `i`-th kept `shared_ptr` -/
  | dropKept (i : Nat)
  /-- the delivery is over -/
  | release

/-- One step. -/
def step {T : Type} (c : Cfg T) (s : St T) : Act T → Option (St T)
  -- `_eventCreatorWrapper` / `_processEventCreatorWrapper` (object_pool_publisher.h 80-132)
  | .acquire t call =>
    if t < c.threads then
      match s.pc t with
      | .idle =>
        match s.pool with
        | some p =>
          match p.acquire with
          | (p', .handle o) => some { s with pool := some p', rc := upd s.rc o 1, pc := upd s.pc t (.got o call) }
          | (p', .outOfRange) => some (fresh c { s with pool := some p' } t call)
        | none => some (fresh c s t call)
      | _ => none
    else none
  | .write t =>
    if t < c.threads then
      match s.pc t with
      | .got o call =>
        some { s with content := upd s.content o (call.value c (s.content o)), pubs := s.pubs ++ [(call, call.value c (s.content o))],
                      pc := upd s.pc t (.made o s.pubs.length) }
      | _ => none
    else none
  -- internalPublish(shared_ptr) (basic_publisher.h 95-101, event_loop_publisher.h 118-123)
  | .push t =>
    if t < c.threads then
      match s.pc t with
      | .made o k =>
        if room c s then some { s with queue := s.queue ++ [(o, k)], rc := upd s.rc o (s.rc o + 1), pc := upd s.pc t (.done o), order := s.order ++ [k] }
        else none
      | _ => none
    else none
  -- force_move_push (safe_queue.h 196-200): `while (max > 0 && size() >= max) pop()`
  | .dropOld t =>
    if t < c.threads ∧ c.policy = .dropOldest ∧ 0 < c.bound ∧ c.bound ≤ s.queue.length then
      match s.pc t, s.queue with
      | .made _ _, (o, k) :: r => some { unref c { s with queue := r } o with discarded := s.discarded + 1, lost := s.lost ++ [k] }
      | _, _ => none
    else none
  -- insufficient_capacity_exception (event_loop_publisher.h 124-127)
  | .refuse t =>
    if t < c.threads ∧ c.policy = .refuse then
      match s.pc t with
      | .made o k => some { s with discarded := s.discarded + 1, pc := upd s.pc t (.done o), lost := s.lost ++ [k] }
      | _ => none
    else none
  | .finish t =>
    if t < c.threads then
      match s.pc t with
      | .done o => some (unref c { s with pc := upd s.pc t .idle } o)
      | _ => none
    else none
  -- takeEventFromQueue (safe_queue_poller.h 69-70: the event is moved out of the queue)
  | .take =>
    match s.hand, s.queue with
    | [], x :: r => some { s with hand := [x], queue := r, taken := s.taken ++ [x.2] }
    | _, _ => none
  -- emitEvent (safe_queue_poller.h 72, event_loop_event_handler.h 81-83) and the listeners
  | .read =>
    match s.hand with
    | (o, k) :: _ => some { s with reads := s.reads ++ [(k, s.content o)] }
    | [] => none
  | .keep =>
    match s.hand with
    | (o, k) :: _ => if s.kept.length < c.maxKept then some { s with kept := s.kept ++ [(o, k)], rc := upd s.rc o (s.rc o + 1) } else none
    | [] => none
  | .readKept i =>
    match s.kept[i]? with
    | some (o, k) => some { s with reads := s.reads ++ [(k, s.content o)] }
    | none => none
  | .dropKept i =>
    match s.kept[i]? with
    | some (o, _) => some (unref c { s with kept := s.kept.eraseIdx i } o)
    | none => none
  -- end of takeEventFromQueue (safe_queue_poller.h 74), `event.eventData.reset()` (event_loop_event_handler.h 84)
  | .release =>
    match s.hand with
    | (o, _) :: r => some (unref c { s with hand := r } o)
    | [] => none

/-- A sequence of steps. -/
def run {T : Type} (c : Cfg T) : St T → List (Act T) → Option (St T)
  | s, [] => some s
  | s, a :: rest =>
    match step c s a with
    | none => none
    | some s' => run c s' rest

/-- Reachable states. -/
inductive Reach {T : Type} (c : Cfg T) : St T → Prop where
  | init : Reach c (St.init c)
  | step {s s' : St T} {a : Act T} : Reach c s → step c s a = some s' → Reach c s'

end Verif.Pipe
