import Verif.Basic

/-! Specification of managed services: which calls a service gets for the events published on its system status topic. -/

namespace Verif.Managed

/-- `SystemEventData`, system_event.h 33-38. -/
inductive Event where
  | start
  | stop
  | idle
  deriving DecidableEq, Repr

/-- What the application does. -/
inductive Op (κ : Type) where
  /-- construct a service with this name; `slave`: with the subscriber, otherwise with a null subscriber.  Services are
  numbered in the order of construction. -/
  | create (name : κ) (slave : Bool)
  /-- destroy service number `i` -/
  | destroy (i : Nat)
  /-- publish a system event -/
  | event (e : Event)
  deriving DecidableEq, Repr

inductive Cmd where
  | startup
  | shutdown
  deriving DecidableEq, Repr

/-- The command an event stands for. -/
def Event.cmd? : Event → Option Cmd
  | .start => some .startup
  | .stop => some .shutdown
  | .idle => none

/-- Events published in a history. -/
def eventsOf {κ : Type} : List (Op κ) → List Event
  | [] => []
  | .event e :: os => e :: eventsOf os
  | _ :: os => eventsOf os

/-- The commands that service number `i` must get from a history: none if it is a master (or never created), otherwise those
of the events published after its creation. -/
def expected {κ : Type} (i : Nat) : List (Op κ) → List Cmd
  | [] => []
  | .create _ slave :: os =>
    match i with
    | 0 => if slave then (eventsOf os).filterMap Event.cmd? else []
    | i + 1 => expected i os
  | _ :: os => expected i os

/-- Service number `i` of a history is a slave. -/
def isSlave {κ : Type} (i : Nat) : List (Op κ) → Bool
  | [] => false
  | .create _ slave :: os =>
    match i with
    | 0 => slave
    | i + 1 => isSlave i os
  | _ :: os => isSlave i os

/-- Names of the slaves created in a history. -/
def slaveNames {κ : Type} : List (Op κ) → List κ
  | [] => []
  | .create n true :: os => n :: slaveNames os
  | _ :: os => slaveNames os

end Verif.Managed
