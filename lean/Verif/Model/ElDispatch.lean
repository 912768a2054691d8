import Verif.Model.EventLoop
import Verif.Model.SafeEmitter
import Verif.Model.MultiEmitter
import Verif.Model.SingleEmitter
import Mathlib.Data.String.Basic

/-!
The way of an event from the event loop to the listeners: `EventLoopMiddlewareProvider` (event_loop_middleware_provider.h) with its publishers, subscribers
(event_loop_subscriber.h) and scheduler (event_loop_function_exec_listener.h), on the step-by-step model of the loop (Model/EventLoop.lean) and the models
of the event emitters.  All in high_performance/modules/high_performance/include/klepsydra/high_performance.

There are two levels of emitters: the external emitter of the provider, on which the loop emits every event under the name of its topic with the suffix
`_external`, and in every subscriber the emitter with the listeners of users.  Both can be of any of the three types of `EventEmitterFactory`.

Simplifications.  Event types: all events of users have type `D`, functions given to the scheduler have type `F`; static casts to the wrong one of the two, uses
of a destroyed subscriber and of a null pointer are the event `bad` of the history.  A callback is the number of its registration.  The topic and the data pointer
are read from the slot when `on_event` is called (nobody writes to the slot during the call, C22).  Emitters that are not synchronised are not changed while they
emit (C56 is about that).  The maps of the provider are used by one thread.  The scheduler's own threads (C74) appear as publications of functions.
-/

namespace Verif.ElD
open Verif

/-- `EventEmitterType` (core/modules/core/include/klepsydra/core/event_emitter_factory.h 28). -/
inductive Kind where
  | safe
  | multi
  | single
  deriving DecidableEq, Repr

/-- An emitter of one of the three classes; callbacks are numbers. -/
inductive Em where
  | safe (s : SafeEE.St String Nat)
  | multi (s : MultiEE.St String Nat)
  | single (s : SingleEE.St String Nat)

/-- `EventEmitterFactory::createEventEmitter` (event_emitter_factory.h 32-50). -/
def Em.make : Kind → Em
  | .safe => .safe SafeEE.St.init
  | .multi => .multi MultiEE.St.init
  | .single => .single SingleEE.St.init

/-- `on(container, listenerName, subscriberName, callback)`; `c`: there is a container. -/
def Em.on (c : Bool) (lname sub : String) (cb : Nat) : Em → Em × Nat
  | .safe s => let r := SafeEE.on s sub cb; (.safe r.1, r.2)
  | .multi s => let r := MultiEE.on s c lname sub cb; (.multi r.1, r.2)
  | .single s => let r := SingleEE.on s c sub cb; (.single r.1, r.2)

/-- `once(subscriberName, callback)`; `none`: `std::invalid_argument` (unsafe_multi_listener_event_emitter.h 117-122,
unsafe_single_listener_event_emitter.h 104-109). -/
def Em.once (sub : String) (cb : Nat) : Em → Option Em
  | .safe s => some (.safe (SafeEE.once s sub cb).1)
  | _ => none

/-- `removeListener(container, id)`; `none`: `std::invalid_argument`. -/
def Em.remove (c : Bool) (id : Nat) : Em → Option Em
  | .safe s => (SafeEE.removeListener s id).map .safe
  | .multi s => some (.multi (MultiEE.remove s c id))
  | .single s => some (.single (SingleEE.remove s c id))

/-- A listener that `emitEvent` is going to call. -/
structure Handler where
  id : Nat
  cb : Nat
  once : Bool
  deriving DecidableEq, Repr

/-- The listeners `emitEvent(subscriberName, ..)` calls, in order (safe_event_emitter.h 120-133, unsafe_multi_listener_event_emitter.h 189-198,
unsafe_single_listener_event_emitter.h 133-142). -/
def Em.handlers (sub : String) : Em → List Handler
  | .safe s => (SafeEE.handlers s sub).map fun l => ⟨l.id, l.cb, l.isOnce⟩
  | .multi s => (s.subs sub).filterMap fun id => match s.fns[id]? with | some (some cb) => some ⟨id, cb, false⟩ | _ => none
  | .single s => match SingleEE.emit s sub () with
    | .calls l => l.map fun x => ⟨0, x.1, false⟩
    | .nullAccess => []

/-- May the emitter be changed now?  Only `SafeEventEmitter` is synchronised. -/
def Em.free (delivering : Bool) : Em → Bool
  | .safe _ => true
  | _ => !delivering

/-- What a data pointer points to: an event of a user or a function for the scheduler's listener. -/
inductive Msg (D F : Type) where
  | ev (d : D)
  | fn (f : F)
  deriving DecidableEq

/-- `EventLoopSubscriber` (event_loop_subscriber.h 55-84) with the map of its base class (event_emitter_subscriber.h 181). -/
structure Sub where
  topic : String
  em : Em
  map : String → Option Nat
  /-- `_listenerId` -/
  extId : Nat

/-- Objects made by the provider that listen on the external emitter. -/
inductive Obj where
  | sub (o : Sub)
  /-- `EventLoopFunctionExecutorListener` (event_loop_function_exec_listener.h 52-75); `no` is the number of its registration -/
  | exec (topic : String) (extId no : Nat)

/-- An emission under way: the data pointer, and the listeners still to be called, each with the object it is registered at. -/
structure Deliv (M : Type) where
  msg : Option M
  todo : List (Nat × Handler)

/-- What can be observed. -/
inductive Ev (M : Type) where
  /-- `registerListener(l, ..)` at the subscriber of topic `n` -/
  | reg (n l : String)
  /-- `registerListenerOnce` at the subscriber of topic `n` -/
  | once (n : String)
  /-- `removeListener(l)` at the subscriber of topic `n` -/
  | rem (n l : String)
  /-- the scheduler was made, with topic `n` -/
  | sched (n : String)
  /-- the loop takes up an event -/
  | start (n : String) (m : Option M)
  /-- the listener of registration `no` is called; `ret`: it returns, otherwise it throws -/
  | call (no : Nat) (m : M) (ret : Bool)
  /-- the loop is done with the event -/
  | fin
  /-- undefined behaviour -/
  | bad
  deriving DecidableEq

structure St (D F : Type) where
  loop : EvLoop.St (Msg D F)
  /-- `_externalEventEmitter` (event_loop_middleware_provider.h 217); callbacks are object numbers -/
  ext : Em
  objs : List Obj
  dead : List Nat
  /-- `_subscriberMap` (223) -/
  subs : List (String × Nat)
  /-- topics for which a publisher of events was obtained (`_publisherMap`, 222) -/
  pubs : List String
  /-- the topic of `_scheduler` (224) -/
  sched : Option String
  /-- registrations so far -/
  count : Nat
  del : Option (Deliv (Msg D F))
  hist : List (Ev (Msg D F))

variable {D F : Type}

/-- Constructor (78-89). -/
def St.init (kind : Kind) : St D F := ⟨EvLoop.St.init, Em.make kind, [], [], [], [], none, 0, none, []⟩

inductive Act (D F : Type) where
  | getPublisher (n : String)
  | getSubscriber (n : String) (kind : Kind)
  | getScheduler (n : String)
  /-- `registerListener` at subscriber object `i` -/
  | reg (i : Nat) (l : String)
  | once (i : Nat)
  | rem (i : Nat) (l : String)
  /-- a step of a publisher, of the loop between deliveries, `start` or `stop`, or the end of a delivery (`finish`) -/
  | loop (a : EvLoop.Act (Msg D F))
  /-- the next listener is called; `ret`: it returns -/
  | call (ret : Bool)

/-- Is a new entry for the external emitter's listener: name of listener and of subscriber (event_loop_subscriber.h 71-74). -/
def extOn (c : Bool) (s : St D F) (n : String) : Em × Nat := s.ext.on c (EvLoop.external n) (EvLoop.external n) s.objs.length

/-- Destructor of a subscriber (event_loop_subscriber.h 77): it leaves the external emitter. -/
def destroy (c : Bool) (s : St D F) (i : Nat) : St D F :=
  match s.objs[i]? with
  | some (.sub o) => { s with ext := (s.ext.remove c o.extId).getD s.ext, dead := i :: s.dead }
  | some (.exec _ id _) => { s with ext := (s.ext.remove c id).getD s.ext, dead := i :: s.dead }
  | none => s

/-- The topic used by the scheduler (event_loop_middleware_provider.h 163). -/
def schedName (n : String) : String := if n = "" then "EVENTLOOP_SCHEDULER" else n

/-- `getScheduler` (161-178) when there is no scheduler yet: the new listener is made (166-168), then it replaces the map entry, whose object is destroyed
(170), then the publisher of functions is looked up (172-173), which finds the publisher of events of that topic if there is one. -/
def makeScheduler (c : Bool) (s : St D F) (n : String) : St D F :=
  let r := extOn c s n
  let s1 : St D F := { s with ext := r.1, objs := s.objs ++ [.exec n r.2 s.count], count := s.count + 1, sched := some n,
                              hist := s.hist ++ [.sched n] ++ (if n ∈ s.pubs then [.bad] else []),
                              subs := (n, s.objs.length) :: s.subs.filter (fun e => e.1 != n) }
  match s.subs.lookup n with
  | some i => destroy c s1 i
  | none => s1

/-- An access to a subscriber through the pointer of a user. -/
def withSub (s : St D F) (i : Nat) (f : Sub → Option (St D F)) : Option (St D F) :=
  match s.objs[i]? with
  | some (.sub o) => if i ∈ s.dead then some { s with hist := s.hist ++ [.bad] } else f o
  | some (.exec ..) => some { s with hist := s.hist ++ [.bad] }
  | none => none

/-- The listeners an object calls for an event. -/
def Obj.targets (i : Nat) : Obj → List (Nat × Handler)
  -- event_loop_subscriber.h 64-70
  | .sub o => (o.em.handlers o.topic).map fun h => (i, h)
  -- event_loop_function_exec_listener.h 58-62
  | .exec _ _ no => [(i, ⟨0, no, false⟩)]

/-- All listeners to be called for an event of topic `n`, through the external emitter (event_loop_event_handler.h 81-83). -/
def targets (s : St D F) (n : String) : List (Nat × Handler) :=
  (s.ext.handlers (EvLoop.external n)).flatMap fun h => ((s.objs[h.cb]?).map (Obj.targets h.cb)).getD []

/-- Do the static casts of the objects called for an event of topic `n` fit the data (event_loop_subscriber.h 65, event_loop_function_exec_listener.h 60)? -/
def fits (s : St D F) (n : String) (m : Option (Msg D F)) : Bool :=
  (s.ext.handlers (EvLoop.external n)).all fun h => match s.objs[h.cb]?, m with
    | some (.sub _), some (.ev _) => true
    | some (.exec ..), some (.fn _) => true
    | _, _ => false

/-- The emission that a step of the loop has begun. -/
def newEmission (l l' : EvLoop.St (Msg D F)) : Option (EvLoop.Emission (Msg D F)) :=
  if l'.emitted.length = l.emitted.length then none else l'.emitted.head?

/-- A publication needs a publisher: of events (`getPublisher`) or of functions (the scheduler's). -/
def mayPublish (s : St D F) : EvLoop.Act (Msg D F) → Bool
  | .call _ t (.ev _) => decide (t ∈ s.pubs)
  | .call _ t (.fn _) => decide (s.sched = some t)
  | _ => true

/-- The listener that has been called throws: the exception passes through the emitters to the processor (batch_event_processor.h). -/
def thrown (k : Nat) (s : St D F) : Option (St D F) :=
  (EvLoop.step k s.loop .throw).map fun l => { s with loop := l, del := none }

/-- One step; `c`: the provider has a container. -/
def step (k : Nat) (c : Bool) (s : St D F) : Act D F → Option (St D F)
  -- 102-128; a publisher of functions is returned as a publisher of events if the topic is that of the scheduler
  | .getPublisher n =>
    if s.sched = some n then some { s with hist := s.hist ++ [.bad] }
    else some { s with pubs := n :: s.pubs }
  -- 136-155
  | .getSubscriber n kind =>
    match s.subs.lookup n with
    | some _ => some s
    | none =>
      if s.ext.free s.del.isSome then
        some { s with ext := (extOn c s n).1, objs := s.objs ++ [.sub ⟨n, Em.make kind, fun _ => none, (extOn c s n).2⟩], subs := (n, s.objs.length) :: s.subs }
      else none
  -- 161-178
  | .getScheduler n =>
    match s.sched with
    | some _ => some s
    | none => if s.ext.free s.del.isSome then some (makeScheduler c s (schedName n)) else none
  -- event_emitter_subscriber.h 97-112
  | .reg i l => withSub s i fun o =>
      if o.em.free s.del.isSome then
        some { s with objs := s.objs.set i (.sub { o with em := (o.em.on c l o.topic s.count).1, map := upd o.map l (some (o.em.on c l o.topic s.count).2) }),
                      count := s.count + 1, hist := s.hist ++ [.reg o.topic l] }
      else none
  -- event_emitter_subscriber.h 80-92
  | .once i => withSub s i fun o =>
      match o.em.once o.topic s.count with
      | some em => some { s with objs := s.objs.set i (.sub { o with em := em }), count := s.count + 1, hist := s.hist ++ [.once o.topic] }
      | none => some s
  -- event_emitter_subscriber.h 151-162
  | .rem i l => withSub s i fun o =>
      if o.em.free s.del.isSome then
        match o.map l with
        | none => some { s with hist := s.hist ++ [.rem o.topic l] }
        | some id =>
          match o.em.remove c id with
          | some em => some { s with objs := s.objs.set i (.sub { o with em := em, map := upd o.map l none }), hist := s.hist ++ [.rem o.topic l] }
          | none => some s
      else none
  -- event_loop_event_handler.h 75-85.  Both levels of emitters look up their listeners in this step: a registration between the two lookups
  -- has the same effect as one before.
  | .loop .advance =>
    match EvLoop.step k s.loop .advance with
    | none => none
    | some l =>
      match newEmission s.loop l with
      | none => some { s with loop := l }
      | some e => some { s with loop := l, del := some ⟨e.data, targets s e.topic⟩,
                                hist := s.hist ++ [.start e.topic e.data] ++ (if fits s e.topic e.data then [] else [.bad]) }
  | .loop .finish =>
    match s.del with
    | some ⟨_, []⟩ => (EvLoop.step k s.loop .finish).map fun l => { s with loop := l, del := none, hist := s.hist ++ [.fin] }
    | _ => none
  | .loop .throw => none
  | .loop a => if mayPublish s a then (EvLoop.step k s.loop a).map fun l => { s with loop := l } else none
  -- a function of the scheduler (event_loop_function_exec_listener.h 61) or a callback made in event_emitter_subscriber.h 104-107; a once
  -- listener that returns is removed (safe_event_emitter.h 135-140)
  | .call ret =>
    match s.del with
    | some ⟨some m, (i, h) :: rest⟩ =>
      if i ∈ s.dead then some { s with hist := s.hist ++ [.bad] }
      else if ret = false then thrown k { s with hist := s.hist ++ [.call h.cb m false] }
      else match s.objs[i]?, h.once with
        | some (.sub o), true =>
          match o.em.remove c h.id with
          | some em => some { s with del := some ⟨some m, rest⟩, hist := s.hist ++ [.call h.cb m true], objs := s.objs.set i (.sub { o with em := em }) }
          | none => thrown k { s with hist := s.hist ++ [.call h.cb m true] }
        | _, _ => some { s with del := some ⟨some m, rest⟩, hist := s.hist ++ [.call h.cb m true] }
    | _ => none

def run (k : Nat) (c : Bool) (s : St D F) : List (Act D F) → Option (St D F)
  | [] => some s
  | a :: as => match step k c s a with
    | none => none
    | some s' => run k c s' as

end Verif.ElD
