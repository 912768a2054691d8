import Verif.Model.Pipeline
import Verif.Model.EventLoop
import Verif.Model.MemPoller
import Verif.Model.CqPoller
import Mathlib.Data.List.Dedup

/-!
The reference counts of pooled events on the detailed models of the middleware.  Model/Pipeline.lean (C69) follows an event through an abstract
queue; here the queue is one of the step-by-step models: the event loop of Model/EventLoop.lean (ring buffer, `try_next` with its gating
cache, batches, throwing listeners, stop and restart), the blocking or discarding `SafeQueue` of Model/MemPoller.lean (waiting threads, spurious
wake-ups, polling thread that a throwing listener ends) and the concurrent queue of Model/CqPoller.lean.

What the publisher with its pool sees of a middleware is a `Chan`: its steps, the calls of `publish(std::shared_ptr<const T>)`, and which events it
holds a `shared_ptr` to.  The reference count itself is not a variable: an object is released when the step removes the last `shared_ptr` to it
(`settle`).
-/

namespace Verif.RefP
open Verif Verif.Pool

/-- A middleware as seen by the holders of `shared_ptr`s to events of type `D`. -/
structure Chan (D : Type) where
  S : Type
  A : Type
  init : S
  step : S → A → Option S
  /-- the step is the call of `publish` by a thread with an event -/
  call : A → Option (Nat × D)
  /-- the events the middleware itself holds a `shared_ptr` to -/
  held : S → List D
  /-- the event listeners are being called with -/
  cur : S → Option D
  /-- the event a thread inside `publish` may still copy into the middleware -/
  arg : S → Nat → D → Prop
  /-- the thread is inside `publish` -/
  busy : S → Nat → Bool

/-- An event in a middleware: object and publication number of the publisher under study, `none` for an event of another publisher on the same
middleware (an event loop or a queue is shared by publishers of many topics, each with its own pool). -/
abbrev Tag := Option (Nat × Nat)

/-- Constructor arguments: those of the publisher, the number of publisher threads, and the number of events that listeners keep at most. -/
structure Cfg (T : Type) where
  pub : Pool.Cfg T
  threads : Nat
  maxKept : Nat

/-- Where a publisher thread is.  `got`: it has an object and has not yet written the event into it; `made`: the event is written (publication number
`k`); `sent`: inside `internalPublish(std::shared_ptr<const T>)` of the middleware or on the way back, with its own `shared_ptr`. -/
inductive Pc (T : Type) where
  | idle
  | got (o : Nat) (c : Pipe.Call T)
  | made (o k : Nat)
  | sent (o k : Nat)

/-- The object a publisher thread holds a `shared_ptr` to. -/
def Pc.obj {T : Type} : Pc T → Option Nat
  | .idle => none
  | .got o _ => some o
  | .made o _ => some o
  | .sent o _ => some o

structure St (T : Type) (C : Chan Tag) where
  ch : C.S
  /-- `_objectPool` (object_pool_publisher.h 60-63) -/
  pool : Option Pool
  content : Nat → T
  /-- next unused object number -/
  next : Nat
  /-- `publicationStats._totalEventAllocations` -/
  allocs : Nat
  pc : Nat → Pc T
  /-- `shared_ptr`s that listeners keep -/
  kept : List (Nat × Nat)
  /-- history: publications with the value that was written, in the order of writing -/
  pubs : List (Pipe.Call T × T)
  /-- history: what listeners read, with the number of the publication -/
  reads : List (Nat × T)

variable {T : Type} {C : Chan Tag}

/-- Constructors (object_pool_publisher.h 60-64). -/
def St.init (c : Cfg T) : St T C where
  ch := C.init
  pool := if c.pub.poolSize = 0 then none else some (Pool.init c.pub.poolSize)
  content := fun _ => c.pub.initFun c.pub.dflt
  next := c.pub.poolSize
  allocs := c.pub.poolSize
  pc := fun _ => .idle
  kept := []
  pubs := []
  reads := []

/-- The events of our publisher the middleware holds. -/
def St.heldEvents (s : St T C) : List (Nat × Nat) := (C.held s.ch).filterMap id

/-- The objects somebody holds a `shared_ptr` to: the middleware, publisher threads, listeners. -/
def refs (c : Cfg T) (s : St T C) : List Nat :=
  s.heldEvents.map (·.1) ++ (List.range c.threads).filterMap (fun t => (s.pc t).obj) ++ s.kept.map (·.1)

/-- Pooled objects that lost their last `shared_ptr` between `s` and `s'` go back to the pool (deleter of the handle, smart_object_pool.h 50-58);
objects outside the pool are freed. -/
def settle (c : Cfg T) (s s' : St T C) : St T C :=
  { s' with pool := s'.pool.map fun p =>
      (((refs c s).filter (fun o => decide (o ∉ refs c s' ∧ o < c.pub.poolSize))).dedup).foldl Pool.release p }

/-- A new object outside the pool (object_pool_publisher.h 89-91, 103-104, 114-115, 119-121, 127-128). -/
def fresh (c : Cfg T) (s : St T C) (t : Nat) (call : Pipe.Call T) : St T C :=
  { s with content := upd s.content s.next (match call with
             | .publish _ => c.pub.initFun c.pub.dflt
             | .process _ => c.pub.dflt),
           next := s.next + 1, allocs := s.allocs + 1, pc := upd s.pc t (.got s.next call) }

/-- The value the call writes into an object with content `d`: the cloner (object_pool_publisher.h 84, 92, 115, 122), or
the initializer and the function of the caller (106, 129, 154). -/
def value (c : Cfg T) (d : T) : Pipe.Call T → T
  | .publish e => c.pub.clone e d
  | .process f => f (c.pub.initFun d)

/-- Scheduler choices. -/
inductive Act (T : Type) (C : Chan Tag) where
  /-- thread `t` calls the publisher and obtains an object -/
  | acquire (t : Nat) (call : Pipe.Call T)
  /-- thread `t` writes the event into its object -/
  | write (t : Nat)
  /-- thread `t` calls `internalPublish(shared_ptr)` of the middleware: the step `a` of the middleware -/
  | send (t : Nat) (a : C.A)
  /-- any other step of the middleware, calls of other publishers included -/
  | chan (a : C.A)
  /-- the call of thread `t` returns -/
  | finish (t : Nat)
  /-- a listener reads the event being delivered -/
  | read
  /-- a listener keeps the `shared_ptr` it is called with -/
  | keep
  /-- somebody reads the `i`-th kept event -/
  | readKept (i : Nat)
  /-- somebody drops the `i`-th kept `shared_ptr` -/
  | dropKept (i : Nat)

/-- One step. -/
def step (c : Cfg T) (s : St T C) : Act T C → Option (St T C)
  -- `_eventCreatorWrapper` / `_processEventCreatorWrapper` (object_pool_publisher.h 80-132)
  | .acquire t call =>
    if t < c.threads then
      match s.pc t with
      | .idle =>
        match s.pool with
        | some p =>
          match p.acquire with
          | (p', .handle o) => some { s with pool := some p', pc := upd s.pc t (.got o call) }
          | (p', .outOfRange) => some (fresh c { s with pool := some p' } t call)
        | none => some (fresh c s t call)
      | _ => none
    else none
  | .write t =>
    if t < c.threads then
      match s.pc t with
      | .got o call =>
        some { s with content := upd s.content o (value c (s.content o) call), pubs := s.pubs ++ [(call, value c (s.content o) call)],
                      pc := upd s.pc t (.made o s.pubs.length) }
      | _ => none
    else none
  -- object_pool_publisher.h 144, 155: `internalPublish` of the middleware's publisher
  | .send t a =>
    if t < c.threads then
      match s.pc t with
      | .made o k =>
        if C.call a = some (t, some (o, k)) then
          match C.step s.ch a with
          | some ch' => some (settle c s { s with ch := ch', pc := upd s.pc t (.sent o k) })
          | none => none
        else none
      | _ => none
    else none
  | .chan a =>
    match C.call a with
    | some (_, some _) => none
    | _ =>
      match C.step s.ch a with
      | some ch' => some (settle c s { s with ch := ch' })
      | none => none
  | .finish t =>
    if t < c.threads then
      match s.pc t with
      | .sent _ _ => if C.busy s.ch t then none else some (settle c s { s with pc := upd s.pc t .idle })
      | _ => none
    else none
  | .read =>
    match C.cur s.ch with
    | some (some (o, k)) => some { s with reads := s.reads ++ [(k, s.content o)] }
    | _ => none
  | .keep =>
    match C.cur s.ch with
    | some (some (o, k)) => if s.kept.length < c.maxKept then some { s with kept := s.kept ++ [(o, k)] } else none
    | _ => none
  | .readKept i =>
    match s.kept[i]? with
    | some (o, k) => some { s with reads := s.reads ++ [(k, s.content o)] }
    | none => none
  | .dropKept i =>
    match s.kept[i]? with
    | some _ => some (settle c s { s with kept := s.kept.eraseIdx i })
    | none => none

/-- A sequence of steps. -/
def run (c : Cfg T) : St T C → List (Act T C) → Option (St T C)
  | s, [] => some s
  | s, a :: rest =>
    match step c s a with
    | none => none
    | some s' => run c s' rest

/-- The step of the middleware that is part of a step, if any. -/
def Act.inner : Act T C → Option C.A
  | .send _ a => some a
  | .chan a => some a
  | _ => none

/-- Reachable states; the steps of the middleware satisfy `P`. -/
inductive Reach (c : Cfg T) (P : C.S → C.A → Prop) : St T C → Prop where
  | init : Reach c P (St.init c)
  | step {s s' : St T C} {a : Act T C} : Reach c P s → (∀ b, a.inner = some b → P s.ch b) → step c s a = some s' → Reach c P s'

/-! ### The three middleware -/

/-- The event loop with `2^k` slots.  A slot holds a `shared_ptr` from the write of a publisher (event_loop_publisher.h 120-122) until the handler resets
it (event_loop_event_handler.h 84) or another event is written over it. -/
def evLoop (k : Nat) : Chan Tag where
  S := EvLoop.St Tag
  A := EvLoop.Act Tag
  init := EvLoop.St.init
  step := EvLoop.step k
  call := fun
    | .call p _ d => some (p, d)
    | _ => none
  held := fun s => (List.range (2 ^ k)).filterMap fun i => if s.cleared i then none else (s.ring.slot i).map (·.2)
  cur := fun s => match s.ring.cp 0 with
    | .handle nx _ => if s.cleared (Disr.slotIdx k nx) then none else (s.ring.slot (Disr.slotIdx k nx)).map (·.2)
    | _ => none
  arg := fun s p d => (∃ t, s.pc p = .claiming t d) ∨ ∃ t x, s.pc p = .claimed t d x
  busy := fun s p => match s.pc p with
    | .idle => false
    | _ => true

/-- The in-memory middleware with a `SafeQueue` of bound `n`: events in the queue and in the hand of the polling thread (safe_queue_poller.h 67-74); waiting
publishers hold their argument.  Thread number 0 of the model is the polling thread, so publishers are the threads from 1. -/
def memQ (discard : Bool) (n : Nat) : Chan Tag where
  S := MemP.St Tag
  A := MemP.Act Tag
  init := MemP.St.init n
  step := MemP.step discard
  call := fun
    | .bm (.publish t x _) => some (t, x)
    | _ => none
  held := fun s => s.bm.sq.q ++ s.bm.hand
  cur := fun s => s.bm.hand.head?
  arg := fun s t x => (t, x) ∈ s.bm.sq.wnf ∨ (t, x) ∈ s.bm.sq.knf
  busy := fun s t => decide (t ∈ s.bm.sq.wnf.map (·.1) ∨ t ∈ s.bm.sq.knf.map (·.1) ∨ t ∈ s.bm.pend.map (·.1))

/-- The in-memory middleware with a concurrent queue: events in the queue and in the hand of the polling thread (concurrent_queue_poller.h 74-83). -/
def concQ (discard : Bool) : Chan Tag where
  S := CqP.St Tag
  A := CqP.Act Tag
  init := CqP.St.init
  step := CqP.step discard
  call := fun
    | .cq (.publish t x) => some (t, x)
    | _ => none
  held := fun s => s.cq.q ++ s.cq.hand
  cur := fun s => s.cq.hand.head?
  arg := fun s t x => (∃ d, s.cq.pc t = .enq x d) ∨ ∃ d, s.cq.pc t = .rem x d
  busy := fun s t => match s.cq.pc t with
    | .idle => false
    | _ => true

end Verif.RefP
