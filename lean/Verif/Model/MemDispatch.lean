import Verif.Model.ElDispatch
import Verif.Model.MemPoller
import Verif.Model.CqPoller

/-!
The way of an event from the queue of an in-memory middleware to the listeners: `InMemoryMiddlewareProvider`
(core/modules/mem_mdlw/include/klepsydra/mem_core/in_memory_middleware_provider.h) with its subscriber (event_emitter_subscriber.h) and its poller, on the
step-by-step models of the two middlewares, `BasicMiddlewareProvider` (Model/MemPoller.lean) and `ConcurrentMiddlewareProvider` (Model/CqPoller.lean).

One provider has one event name, one publisher, one subscriber and one emitter.  The emitter and the events of the history are those of Model/ElDispatch.lean;
the history is read by the same specification (Spec/ElDispatch.lean) as that of the event loop provider.  Simplifications as there: a callback is the number of its
registration; emitters that are not synchronised are not changed while they emit.
-/

namespace Verif.MemD
open Verif ElD

/-- A middleware with one thread that takes events from a queue and gives them to the emitter. -/
structure Chan (D : Type) where
  σ : Type
  Act : Type
  init : σ
  step : σ → Act → Option σ
  /-- the event the polling thread has taken and not yet done with -/
  hand : σ → Option D
  /-- the polling loop runs -/
  alive : σ → Bool
  /-- `emitEvent` returns to the polling loop -/
  emit : Act
  /-- `emitEvent` throws -/
  throw : Act
  /-- is it one of the two? -/
  own : Act → Bool
  /-- conditions on the use of the middleware -/
  may : σ → Prop

/-- `BasicMiddlewareProvider` with queue size `n` (basic_middleware_provider.h 58-79). -/
def basic (D : Type) (discard : Bool) (n : Nat) : Chan D where
  σ := MemP.St D
  Act := MemP.Act D
  init := MemP.St.init n
  step := MemP.step discard
  hand s := s.bm.hand.head?
  alive s := s.alive
  emit := .bm .emit
  throw := .throw
  own | .bm .emit => true
      | .throw => true
      | _ => false
  may _ := True

/-- `ConcurrentMiddlewareProvider` (concurrent_middleware_provider.h 62-90); its one producer token is not used by two threads at the same time (C63). -/
def concurrent (D : Type) (discard : Bool) : Chan D where
  σ := CqP.St D
  Act := CqP.Act D
  init := CqP.St.init
  step := CqP.step discard
  hand s := s.cq.hand.head?
  alive s := s.alive
  emit := .cq .emit
  throw := .throw
  own | .cq .emit => true
      | .throw => true
      | _ => false
  may s := ¬ s.cq.TokenRace

variable {D : Type}

/-- Events of the history: there are no functions for a scheduler here. -/
abbrev Event (D : Type) := Ev (Msg D Empty)

structure St (C : Chan D) where
  ch : C.σ
  /-- `_eventEmitter` (in_memory_middleware_provider.h 109) -/
  em : Em
  /-- `_listenersMap` of `_subscriber` (event_emitter_subscriber.h 181) -/
  map : String → Option Nat
  /-- registrations so far -/
  count : Nat
  /-- the emission under way: the event and the listeners still to be called -/
  del : Option (D × List Handler)
  hist : List (Event D)

/-- Constructor (in_memory_middleware_provider.h 52-61) and `start`. -/
def St.init (C : Chan D) (kind : Kind) : St C := ⟨C.init, Em.make kind, fun _ => none, 0, none, []⟩

inductive Act (C : Chan D) where
  | reg (l : String)
  | once
  | rem (l : String)
  /-- a step of a publisher, of the queue or of the poller between two deliveries; a restart -/
  | ch (a : C.Act)
  /-- `emitEvent` with the event taken from the queue looks up the listeners -/
  | take
  /-- the next listener is called; `ret`: it returns -/
  | call (ret : Bool)
  /-- `emitEvent` returns -/
  | fin

variable {C : Chan D}

/-- The exception passes through `emitEvent` and ends the polling loop (safe_queue_poller.h 72, concurrent_queue_poller.h 79,
src/in_memory_queue_poller.cpp 59-65). -/
def thrown (s : St C) : Option (St C) := (C.step s.ch C.throw).map fun ch => { s with ch := ch, del := none }

/-- One step of the provider for the event name `n`; `c`: it has a container. -/
def step (n : String) (c : Bool) (s : St C) : Act C → Option (St C)
  -- event_emitter_subscriber.h 97-112
  | .reg l =>
    if s.em.free s.del.isSome then
      some { s with em := (s.em.on c l n s.count).1, map := upd s.map l (some (s.em.on c l n s.count).2), count := s.count + 1, hist := s.hist ++ [.reg n l] }
    else none
  -- event_emitter_subscriber.h 80-92
  | .once =>
    match s.em.once n s.count with
    | some em => some { s with em := em, count := s.count + 1, hist := s.hist ++ [.once n] }
    | none => some s
  -- event_emitter_subscriber.h 151-162
  | .rem l =>
    if s.em.free s.del.isSome then
      match s.map l with
      | none => some { s with hist := s.hist ++ [.rem n l] }
      | some id =>
        match s.em.remove c id with
        | some em => some { s with em := em, map := upd s.map l none, hist := s.hist ++ [.rem n l] }
        | none => some s
    else none
  | .ch a => if C.own a then none else (C.step s.ch a).map fun ch => { s with ch := ch }
  -- safe_queue_poller.h 70-72, concurrent_queue_poller.h 77-79; safe_event_emitter.h 120-133
  | .take =>
    match s.del, C.hand s.ch with
    | none, some d => if C.alive s.ch then some { s with del := some (d, s.em.handlers n), hist := s.hist ++ [.start n (some (.ev d))] } else none
    | _, _ => none
  -- a callback made in event_emitter_subscriber.h 104-107; a once listener that returns is removed (safe_event_emitter.h 135-140)
  | .call ret =>
    match s.del with
    | some (d, h :: rest) =>
      if ret = false then thrown { s with hist := s.hist ++ [.call h.cb (.ev d) false] }
      else if h.once then
        match s.em.remove c h.id with
        | some em => some { s with del := some (d, rest), hist := s.hist ++ [.call h.cb (.ev d) true], em := em }
        | none => thrown { s with hist := s.hist ++ [.call h.cb (.ev d) true] }
      else some { s with del := some (d, rest), hist := s.hist ++ [.call h.cb (.ev d) true] }
    | _ => none
  | .fin =>
    match s.del with
    | some (_, []) => (C.step s.ch C.emit).map fun ch => { s with ch := ch, del := none, hist := s.hist ++ [.fin] }
    | _ => none

def run (n : String) (c : Bool) (s : St C) : List (Act C) → Option (St C)
  | [] => some s
  | a :: as => match step n c s a with
    | none => none
    | some s' => run n c s' as

end Verif.MemD
