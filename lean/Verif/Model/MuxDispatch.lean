import Verif.Model.DataMux
import Verif.Model.MemDispatch

/-!
The way of an event from the ring of the data multiplexer to the listeners of one of its subscribers: `DataMultiplexerSubscriber`
(high_performance/modules/high_performance/include/klepsydra/high_performance/data_multiplexer_subscriber.h) with its batch processor, its event handler
(data_multiplexer_event_handler.h) and its emitter.  The multiplexer is that of Model/DataMux.lean, with its publisher and all other subscribers; where that model has one
listener per subscriber, this one has the emitter of the subscriber and any number of listeners, registered, removed and called as in Model/MemDispatch.lean, whose steps and histories
it uses.

Simplifications: those of the two models; subscribers are created only while no sequence is claimed and unpublished (C21 has what happens otherwise).
-/

namespace Verif.MuxD
open Verif Verif.Disr ElD MemD

variable {T : Type}

/-- What the batch processor of the subscriber gives to its listeners: the shared pointer `event.eventData` (data_multiplexer_event_handler.h 88-90), here the object it
points to; the sequence is kept with it. -/
abbrev Data := Int × Mux.Obj

inductive Act (T : Type) where
  /-- a step of the publisher, of another subscriber, or of the batch processor between two calls of `on_event` -/
  | mux (a : Mux.Act T)
  /-- `on_event` returns, for an event that is not the last of its batch (`discardEvent`, data_multiplexer_event_handler.h 91-93) -/
  | skip
  /-- `on_event` returns, for the last event of its batch (87-90) -/
  | emit
  /-- `emitEvent` throws and the exception passes through `on_event` (batch_event_processor.h 138-145; `on_event_exception` does nothing) -/
  | throw

/-- The event whose `on_event` is under way, if it is the last of its batch: the one that is emitted. -/
def hand (c : Nat) (s : Mux.St T) : Option Data :=
  match s.ring.cp c with
  | .handle x av => if x = av then (s.dl c).head?.map fun e => (e.1, e.2.1) else none
  | _ => none

/-- Steps of others: `on_event` of subscriber `c` does not end here, and subscriber `c` is created once. -/
def others (shared : Bool) (k c : Nat) (s : Mux.St T) : Mux.Act T → Option (Mux.St T)
  | .finish d => if d = c then none else Mux.step shared k s (.finish d)
  | .throw d => if d = c then none else Mux.step shared k s (.throw d)
  | .subscribe d => if d ≠ c ∧ s.ring.cursor = s.ring.nextVal ∧ s.ring.cp d = .idle then Mux.step shared k s (.subscribe d) else none
  | a => Mux.step shared k s a

def chStep (shared : Bool) (k c : Nat) (s : Mux.St T) : Act T → Option (Mux.St T)
  | .mux a => others shared k c s a
  | .skip => match s.ring.cp c with
    | .handle x av => if x = av then none else Mux.step shared k s (.finish c)
    | _ => none
  | .emit => match hand c s with
    | some _ => Mux.step shared k s (.finish c)
    | none => none
  | .throw => match hand c s with
    | some _ => Mux.step shared k s (.throw c)
    | none => none

/-- Subscriber `c` of a multiplexer of size `2 ^ k` that is in state `s0` when the subscriber has been created (data_multiplexer_subscriber.h 68-99). -/
def chan (shared : Bool) (k c : Nat) (s0 : Mux.St T) : Chan Data where
  σ := Mux.St T
  Act := Act T
  init := s0
  step := chStep shared k c
  hand := hand c
  -- the batch processor goes on after an exception (batch_event_processor.h 138-145)
  alive _ := true
  emit := .emit
  throw := .throw
  own | .emit => true
      | .throw => true
      | _ => false
  may _ := True

end Verif.MuxD
