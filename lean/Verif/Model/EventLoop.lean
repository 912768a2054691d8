import Verif.Model.MultiRing

/-!
The event loop: `EventLoop` (event_loop.h), `EventLoopPublisher` (event_loop_publisher.h), `EventLoopEventHandler`
(event_loop_event_handler.h), `EventLoopSubscriber` (event_loop_subscriber.h) in
high_performance/modules/high_performance/include/klepsydra/high_performance, on top of the ring with many producers of
Model/MultiRing.lean, whose steps it uses.  The loop is processor 0 of the ring.

A slot of the ring (`EventloopDataWrapper`) holds the topic and the data pointer.  The data pointer is reset by the handler after the
listeners ran; this is the `cleared` flag of a slot: pointer null.  Simplifications: time stamps are left out; the writes of a publisher to
its claimed slot are one step; the counter of discarded events is incremented atomically; threads publishing to the same topic use the same
publisher, as `getPublisher` gives them (event_loop_middleware_provider.h 102-128).
-/

namespace Verif.EvLoop
open Verif Verif.Disr

/-- Where a publishing thread is in `internalPublish` (event_loop_publisher.h 116-128). -/
inductive Pc (D : Type) where
  | idle
  /-- in `try_next` (119) -/
  | claiming (topic : String) (d : D)
  /-- sequence `x` claimed (120) -/
  | claimed (topic : String) (d : D) (x : Int)
  /-- slot written, before `publish` (123) -/
  | written (topic : String) (d : D) (x : Int)

/-- Content of a slot: the topic and data last written. -/
abbrev Val (D : Type) := Option (String × D)

/-- An emission on the external emitter: sequence, topic, data (`none`: null pointer). -/
structure Emission (D : Type) where
  seq : Int
  topic : String
  data : Option D
  deriving DecidableEq, Repr

structure St (D : Type) where
  ring : MRing.St (Val D)
  /-- the data pointer of the slot is null -/
  cleared : Nat → Bool
  pc : Nat → Pc D
  /-- `_isStarted` -/
  started : Bool
  /-- `_discardedMessages` of the publisher of a topic -/
  discarded : String → Nat
  /-- history: accepted calls (thread, topic, data, sequence), newest first -/
  accepted : List (Nat × String × D × Int)
  /-- history: emissions since the last start, newest first -/
  emitted : List (Emission D)
  /-- history: emissions of the sessions before, newest first -/
  before : List (Emission D)

def St.init {D : Type} : St D where
  ring := MRing.St.init none
  cleared := fun _ => true
  pc := fun _ => .idle
  started := false
  discarded := fun _ => 0
  accepted := []
  emitted := []
  before := []

inductive Act (D : Type) where
  /-- thread `p` calls `publish` of the publisher of `topic` -/
  | call (p : Nat) (topic : String) (d : D)
  /-- next step in `try_next` -/
  | claim (p : Nat)
  /-- the compare-and-set of `try_next` fails spuriously (D4/sequence.h 75-78) -/
  | weak (p : Nat)
  | write (p : Nat)
  | publish (p : Nat)
  /-- `start()` (event_loop.h 101-120): the new thread adds the gating sequence (84); `run()` follows -/
  | start
  /-- the thread enters `batchEventProcessor->run()` (86) -/
  | run
  | look
  | scan
  /-- `on_event` called: emission; or end of the batch -/
  | advance
  /-- the listeners have returned, the data pointer is reset (event_loop_event_handler.h 84) -/
  | finish
  /-- a listener throws `std::exception` -/
  | throw
  /-- `stop()` (event_loop.h 125-140) -/
  | stop
  deriving DecidableEq

variable {D : Type}

/-- After a step of `try_next`: refused (124-127), claimed, or still inside. -/
def afterClaim (s : St D) (p : Nat) (t : String) (d : D) (r : MRing.St (Val D)) : St D :=
  if r.pp p = .idle then
    if r.cursor = s.ring.cursor then
      { s with ring := r, pc := upd s.pc p .idle, discarded := fun u => if u = t then s.discarded u + 1 else s.discarded u }
    else { s with ring := r, pc := upd s.pc p (.claimed t d r.cursor), accepted := (p, t, d, r.cursor) :: s.accepted }
  else { s with ring := r }

/-- What `on_event` finds in the slot of `x`: `eventName` and `eventData`. -/
def readSlot (k : Nat) (s : St D) (x : Int) : Emission D :=
  match s.ring.slot (slotIdx k x) with
  | none => ⟨x, "", none⟩
  | some (t, d) => ⟨x, t, if s.cleared (slotIdx k x) then none else some d⟩

/-- A step of the ring that has no other effect. -/
def lift (s : St D) (r : Option (MRing.St (Val D))) : Option (St D) := r.map (fun r => { s with ring := r })

def step (k : Nat) (s : St D) : Act D → Option (St D)
  | .call p t d =>
    match s.pc p with
    | .idle => (MRing.step k s.ring (.callTry p 1)).map (fun r => { s with ring := r, pc := upd s.pc p (.claiming t d) })
    | _ => none
  | .claim p =>
    match s.pc p with
    | .claiming t d => (MRing.step k s.ring (.pstep p)).map (afterClaim s p t d)
    | _ => none
  | .weak p =>
    match s.pc p with
    | .claiming .. => lift s (MRing.step k s.ring (.weak p))
    | _ => none
  | .write p =>
    match s.pc p with
    | .claimed t d x =>
      (MRing.step k s.ring (.write p x (some (t, d)))).map (fun r =>
        { s with ring := r, cleared := upd s.cleared (slotIdx k x) false, pc := upd s.pc p (.written t d x) })
    | _ => none
  | .publish p =>
    match s.pc p with
    | .written _ _ x => (MRing.step k s.ring (.publish p x)).map (fun r => { s with ring := r, pc := upd s.pc p .idle })
    | _ => none
  | .start =>
    if s.started then none
    else (MRing.step k s.ring (.addGating 0)).map (fun r =>
      { s with ring := r, started := true, before := s.emitted ++ s.before, emitted := [] })
  | .run => if s.started then lift s (MRing.step k s.ring (.run 0)) else none
  | .look => lift s (MRing.step k s.ring (.look 0))
  | .scan => lift s (MRing.step k s.ring (.scan 0))
  | .advance =>
    match s.ring.cp 0 with
    | .batch nx av =>
      if nx ≤ av then lift { s with emitted := readSlot k s nx :: s.emitted } (MRing.step k s.ring (.advance 0))
      else lift s (MRing.step k s.ring (.advance 0))
    | _ => none
  | .finish =>
    match s.ring.cp 0 with
    | .handle nx _ => lift { s with cleared := upd s.cleared (slotIdx k nx) true } (MRing.step k s.ring (.finish 0))
    | _ => none
  | .throw => lift s (MRing.step k s.ring (.throw 0))
  | .stop => if s.started then lift { s with started := false } (MRing.step k s.ring (.leave 0)) else none

def run (k : Nat) (s : St D) : List (Act D) → Option (St D)
  | [] => some s
  | a :: as => match step k s a with
    | none => none
    | some s' => run k s' as

/-- The name a subscriber registers under in the external emitter (event_loop_subscriber.h 71-74) and the handler emits on
(event_loop_event_handler.h 81-83). -/
def external (topic : String) : String := topic ++ "_external"

/-- What subscriber of `topic` passes on to its listeners: the emissions under the name it registered (event_loop_subscriber.h 64-70). -/
def received (topic : String) (l : List (Emission D)) : List (Emission D) := l.filter (fun e => external e.topic == external topic)

end Verif.EvLoop
