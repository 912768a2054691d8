import Verif.Model.Subscriber
import Verif.Spec.ManagedService

/-!
Model of `kpsr::ManagedService` (CORE/manage_service.h 46-82) on the subscriber model.  The base class `Service` belongs to the
external sdk: of it only the calls of `startup()` and `shutdown()` are recorded.
-/

namespace Verif.Managed
open Verif

/-- What a system event makes a listener do. -/
inductive Call where
  | cmd (i : Nat) (c : Cmd)
  /-- the listener runs on an object that has been destroyed (it reads `serviceStats.name`, 73-76, whatever the event) -/
  | dangling (i : Nat)
  deriving DecidableEq, Repr

variable {σ κ : Type} [DecidableEq κ]

structure St (σ κ : Type) where
  /-- the subscriber of the system status topic -/
  sub : Sub.St σ κ
  /-- number of services constructed -/
  next : Nat
  /-- the object exists -/
  alive : Nat → Bool
  log : List Call

/-- Constructor, 56-66: the listener is registered under the name of the service if the subscriber is not null. -/
def create (E : Sub.Emitter σ κ Nat Event) (s : St σ κ) (name : κ) (slave : Bool) : St σ κ :=
  { s with
    sub := if slave then Sub.register E s.sub name s.next else s.sub
    next := s.next + 1
    alive := upd s.alive s.next true }

/-- Destructor, 68: nothing is unregistered. -/
def destroy (s : St σ κ) (i : Nat) : St σ κ := { s with alive := upd s.alive i false }

/-- `onSystemMessageReceived`, 71-82. -/
def onSystemMessageReceived (alive : Nat → Bool) (i : Nat) (e : Event) : List Call :=
  if alive i then
    if e = .start then [.cmd i .startup]
    else if e = .stop then [.cmd i .shutdown]
    else []
  else [.dangling i]

/-- The subscriber's emitter calls the listeners. -/
def event (E : Sub.Emitter σ κ Nat Event) (s : St σ κ) (e : Event) : St σ κ :=
  let r := E.emit s.sub.em e
  { s with
    sub := { s.sub with em := r.1 }
    log := s.log ++ r.2.flatMap (fun c => onSystemMessageReceived s.alive c.1 c.2) }

def step (E : Sub.Emitter σ κ Nat Event) (s : St σ κ) : Op κ → St σ κ
  | .create n b => create E s n b
  | .destroy i => destroy s i
  | .event e => event E s e

def run (E : Sub.Emitter σ κ Nat Event) (s : St σ κ) (os : List (Op κ)) : St σ κ := os.foldl (step E) s

/-- Commands given to service `i`. -/
def callsTo (i : Nat) (l : List Call) : List Cmd :=
  l.filterMap (fun c => match c with
    | .cmd j c => if j = i then some c else none
    | .dangling _ => none)

end Verif.Managed
