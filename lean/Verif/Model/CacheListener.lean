import Verif.Basic
import Verif.Model.Sequencer

/-!
`CacheListener` and `MultiThreadCacheListener` (core/modules/core/include/klepsydra/core/cache_listener.h 52-120, 142-202), any number of threads.

An access to the member `_lastReceivedEvent` (a `shared_ptr`, not atomic) takes time: it begins and ends; two accesses at the same time, one of
them writing, are a data race.  The counter is atomic.  `onEventReceived` and `onEventReceivedRaw` differ only in whether the event is copied.
Simplifications: `totalCopyingTime` is left out; the sleep of `TestCacheListener` is not visible.
-/

namespace Verif.Cache
open Verif Verif.Disr

/-- Where a thread is. -/
inductive Pc (E : Type) where
  | idle
  /-- waits for the mutex in `onEventReceived` / `onEventReceivedRaw` (159, 169) -/
  | wantRecv (e : E)
  /-- in `getLastReceivedEvent` (179) -/
  | wantLast
  /-- in `getCounterAndEvent` (190) -/
  | wantPair
  /-- writing `_lastReceivedEvent` (78, 92) -/
  | writing (e : E)
  /-- before `counter++` (83, 93) -/
  | stored (e : E)
  /-- reading `_lastReceivedEvent` (105) -/
  | readingLast
  /-- before reading the counter (191) -/
  | readCnt
  /-- counter read, reading `_lastReceivedEvent` (192) -/
  | readingPair (n : Int)

def Pc.isIdle {E : Type} : Pc E → Bool
  | .idle => true
  | _ => false

structure St (E : Type) where
  /-- `_lastReceivedEvent` -/
  last : Option E
  /-- `counter`, an `int` -/
  counter : Int
  /-- the mutex -/
  owner : Option Nat
  pc : Nat → Pc E
  /-- events received (calls completed), in order -/
  received : List E
  /-- results of `getLastReceivedEvent`, newest first -/
  lasts : List (Option E)
  /-- results of `getCounterAndEvent`, newest first -/
  pairs : List (Int × Option E)

def St.init {E : Type} : St E := ⟨none, 0, none, fun _ => .idle, [], [], []⟩

inductive Act (E : Type) where
  | recv (t : Nat) (e : E)
  | getLast (t : Nat)
  | getPair (t : Nat)
  /-- the thread enters the critical section (`locked`: it gets the mutex) -/
  | enter (t : Nat)
  /-- the next step of the thread -/
  | next (t : Nat)

variable {E : Type}

/-- `locked`: the multi-thread listener; otherwise there is no mutex. -/
def step (locked : Bool) (s : St E) : Act E → Option (St E)
  | .recv t e => if (s.pc t).isIdle then some { s with pc := upd s.pc t (.wantRecv e) } else none
  | .getLast t => if (s.pc t).isIdle then some { s with pc := upd s.pc t .wantLast } else none
  | .getPair t => if (s.pc t).isIdle then some { s with pc := upd s.pc t .wantPair } else none
  | .enter t =>
    if locked = true ∧ s.owner ≠ none then none
    else
      match s.pc t with
      | .wantRecv e => some { s with pc := upd s.pc t (.writing e), owner := if locked then some t else none }
      | .wantLast => some { s with pc := upd s.pc t .readingLast, owner := if locked then some t else none }
      | .wantPair => some { s with pc := upd s.pc t .readCnt, owner := if locked then some t else none }
      | _ => none
  | .next t =>
    match s.pc t with
    | .writing e => some { s with last := some e, pc := upd s.pc t (.stored e) }
    | .stored e => some { s with counter := toInt32 (s.counter + 1), received := s.received ++ [e], pc := upd s.pc t .idle, owner := none }
    | .readingLast => some { s with lasts := s.last :: s.lasts, pc := upd s.pc t .idle, owner := none }
    | .readCnt => some { s with pc := upd s.pc t (.readingPair s.counter) }
    | .readingPair n => some { s with pairs := (n, s.last) :: s.pairs, pc := upd s.pc t .idle, owner := none }
    | _ => none

def run (locked : Bool) (s : St E) : List (Act E) → Option (St E)
  | [] => some s
  | a :: as => match step locked s a with
    | none => none
    | some s' => run locked s' as

inductive Reach (locked : Bool) : St E → Prop where
  | init : Reach locked St.init
  | step {s s' a} : Reach locked s → step locked s a = some s' → Reach locked s'

/-- Thread `t` accesses `_lastReceivedEvent`; `w`: it writes. -/
def Accessing (s : St E) (t : Nat) (w : Bool) : Prop :=
  match s.pc t with
  | .writing _ => w = true
  | .readingLast => w = false
  | .readingPair _ => w = false
  | _ => False

/-- A data race on `_lastReceivedEvent`. -/
def Race (s : St E) : Prop := ∃ t u w, t ≠ u ∧ Accessing s t true ∧ Accessing s u w

end Verif.Cache
