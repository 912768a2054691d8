import Verif.Basic
import Verif.Spec.Container

/-!
`CoreContainer` (core/modules/core/src/core_container.cpp, core/modules/core/include/klepsydra/core/core_container.h), one call at a time; its locks are in
the table at the end.
-/

namespace Verif.Cont
open Verif

structure St where
  /-- `_managedServices` -/
  managed : List Item
  /-- `_serviceStats`, `_functionStats`, `_publicationStats`, `_subscriptionStats` -/
  stats : Kind → List Item
  /-- `_running` -/
  running : Bool
  /-- statistics on which `start()` was called last, not `stop()` -/
  started : Kind → Item → Bool

/-- Constructor, 20-25. -/
def St.init : St := ⟨[], fun _ => [], false, fun _ _ => false⟩

/-- `find_if` by name and `erase` (detach functions, 99-119, 146-151, 209-215). -/
def eraseName (l : List Item) (n : String) : List Item := l.eraseP (fun y => y.name == n)

def setK (f : Kind → List Item) (k : Kind) (l : List Item) : Kind → List Item := fun j => if j = k then l else f j

def setStarted (s : St) (k : Kind) (x : Item) : Kind → Item → Bool := fun j y => if j = k ∧ y = x then true else s.started j y

/-- attach(Service*) 78-92; attach(ServiceStats*) 154-168, attach(FunctionStats*) 122-136, attach(PublicationStats*) 170-184,
attach(SubscriptionStats*) 186-200; the statistics part is the same. -/
def attachStats (s : St) (k : Kind) (x : Item) : St :=
  { s with
    stats := setK s.stats k (s.stats k ++ [x])
    started := if s.running then setStarted s k x else s.started }

def apply (s : St) : Op → St
  | .start => { s with running := true, started := fun k x => if x ∈ s.stats k then true else s.started k x }  -- 36-55
  | .stop => { s with running := false, started := fun k x => if x ∈ s.stats k then false else s.started k x }  -- 57-76
  | .attachService x => attachStats { s with managed := s.managed ++ [x] } .service x
  | .detachService x =>
    -- 93-120
    { s with managed := eraseName s.managed x.name, stats := setK s.stats .service (eraseName (s.stats .service) x.name) }
  | .attach k x => attachStats s k x
  | .detach .function x => { s with stats := setK s.stats .function (eraseName (s.stats .function) x.name) }  -- 138-152
  | .detach .subscription x => { s with stats := setK s.stats .subscription (eraseName (s.stats .subscription) x.name) }  -- 202-216
  | .detach .publication _ => { s with stats := setK s.stats .publication [] }  -- 218-224
  | .detach .service _ => s  -- does not exist

def run (ops : List Op) : St := ops.foldl apply St.init

/-! ### locks -/

/-- The members functions of the container access. -/
inductive Var where
  | managed | serviceStats | functionStats | publicationStats | subscriptionStats
  deriving DecidableEq, Repr

inductive Mutex where
  | serviceMutex | serviceStatsMutex | functionStatsMutex | publishStatsMutex | subscriptionStatsMutex
  deriving DecidableEq, Repr

/-- The functions of the API. -/
inductive Fn where
  | start | stop | attachService | detachService | attachServiceStats | attachFunction | detachFunction | attachPublication | detachPublication
  | attachSubscription | detachSubscription
  deriving DecidableEq, Repr

def Fn.all : List Fn := [.start, .stop, .attachService, .detachService, .attachServiceStats, .attachFunction, .detachFunction, .attachPublication,
  .detachPublication, .attachSubscription, .detachSubscription]

/-- The vectors a function reads (`false`) or changes (`true`). -/
def Fn.accesses : Fn → List (Var × Bool)
  | .start | .stop => [(.serviceStats, false), (.functionStats, false), (.publicationStats, false), (.subscriptionStats, false)]
  | .attachService | .detachService => [(.managed, true), (.serviceStats, true)]
  | .attachServiceStats => [(.serviceStats, true)]
  | .attachFunction | .detachFunction => [(.functionStats, true)]
  | .attachPublication | .detachPublication => [(.publicationStats, true)]
  | .attachSubscription | .detachSubscription => [(.subscriptionStats, true)]

/-- The mutex held meanwhile (83, 98, 127, 143, 159, 175, 191, 207; none in 36-76 and 218-224). -/
def Fn.lock : Fn → Option Mutex
  | .start | .stop | .detachPublication => none
  | .attachService | .detachService => some .serviceMutex
  | .attachServiceStats => some .serviceStatsMutex
  | .attachFunction | .detachFunction => some .functionStatsMutex
  | .attachPublication => some .publishStatsMutex
  | .attachSubscription | .detachSubscription => some .subscriptionStatsMutex

/-- Two functions run by two threads at the same time race: both access a vector, one changes it, and no mutex keeps them apart. -/
def races (f g : Fn) : Bool :=
  f.accesses.any (fun a => g.accesses.any (fun b => a.1 == b.1 && (a.2 || b.2))) && (f.lock.isNone || g.lock.isNone || f.lock != g.lock)

end Verif.Cont
