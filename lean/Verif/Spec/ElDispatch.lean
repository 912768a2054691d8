import Verif.Model.ElDispatch
import Verif.Lemmas.EventLoop

/-!
Specification for C79: who has to be called with what.  A registry of listeners per topic, in the order of registration; registrations are numbered.
`ok h` reads a history of registrations, removals, deliveries and calls and says whether every call is the one that has to be made next.
-/

namespace Verif.ElD

inductive K where
  | named (l : String)
  | once
  /-- the listener that runs the functions of the scheduler -/
  | exec
  deriving DecidableEq, Repr

/-- A registered listener: the number of its registration and its kind. -/
structure Ent where
  no : Nat
  kind : K
  deriving DecidableEq, Repr

structure Abs (M : Type) where
  /-- number of registrations so far -/
  count : Nat
  /-- the listeners of a topic, in the order of registration -/
  live : String → List Ent
  /-- the delivery under way: topic, event, listeners still to be called -/
  cur : Option (String × M × List Ent)

variable {D F : Type}

def Abs.init {M : Type} : Abs M := ⟨0, fun _ => [], none⟩

/-- Does the event suit the listener: functions for the scheduler's listener, events for the others. -/
def suits : K → Msg D F → Bool
  | .exec, .fn _ => true
  | .exec, .ev _ => false
  | _, .ev _ => true
  | _, .fn _ => false

/-- What may happen. -/
def Abs.next [DecidableEq D] [DecidableEq F] (a : Abs (Msg D F)) : Ev (Msg D F) → Option (Abs (Msg D F))
  | .reg n l => some { a with count := a.count + 1, live := upd a.live n (a.live n ++ [⟨a.count, .named l⟩]) }
  | .once n => some { a with count := a.count + 1, live := upd a.live n (a.live n ++ [⟨a.count, .once⟩]) }
  | .sched n => some { a with count := a.count + 1, live := upd a.live n (a.live n ++ [⟨a.count, .exec⟩]) }
  | .rem n l => some { a with live := upd a.live n ((a.live n).filter fun e => decide (e.kind ≠ .named l)) }
  -- an event is taken up when the one before is done with; it is there; the listeners to be called are those registered now
  | .start n (some m) => if a.cur.isNone then some { a with cur := some (n, m, a.live n) } else none
  | .start _ none => none
  -- exactly the next listener is called, with that event; a once listener that returns is removed; an exception ends the delivery
  | .call no m ret =>
    match a.cur with
    | some (n, m', e :: rest) =>
      if e.no = no ∧ m = m' ∧ suits e.kind m then
        if ret then some { a with cur := some (n, m', rest),
                                  live := if e.kind = .once then upd a.live n ((a.live n).filter fun x => decide (x.no ≠ no)) else a.live }
        else some { a with cur := none }
      else none
    | _ => none
  -- the loop goes on when all have been called
  | .fin =>
    match a.cur with
    | some (_, _, []) => some { a with cur := none }
    | _ => none
  | .bad => none

def Abs.run [DecidableEq D] [DecidableEq F] (a : Abs (Msg D F)) : List (Ev (Msg D F)) → Option (Abs (Msg D F))
  | [] => some a
  | e :: es => match a.next e with
    | none => none
    | some a' => a'.run es

/-- The history is one the specification allows. -/
def Conforms [DecidableEq D] [DecidableEq F] (h : List (Ev (Msg D F))) : Prop := ∃ a, (Abs.init : Abs (Msg D F)).run h = some a

/-- Events the loop has taken up, with their topics, in order. -/
def starts (h : List (Ev (Msg D F))) : List (String × Option (Msg D F)) :=
  h.filterMap fun | .start n m => some (n, m) | _ => none

/-- What the listener of registration `no` was called with, in order. -/
def callsOf (no : Nat) (h : List (Ev (Msg D F))) : List (Msg D F) :=
  h.filterMap fun | .call no' m _ => if no' = no then some m else none | _ => none

/-- The events of topic `n` the loop has taken up, in order. -/
def eventsOn (n : String) (h : List (Ev (Msg D F))) : List (Msg D F) :=
  h.filterMap fun | .start n' (some m) => if n' = n then some m else none | _ => none

/-- No listener throws. -/
def NoThrow (h : List (Ev (Msg D F))) : Prop := ∀ no m, Ev.call no m false ∉ h

/-- Number of registrations in a history. -/
def regs (h : List (Ev (Msg D F))) : Nat :=
  h.countP fun | .reg .. => true | .once _ => true | .sched _ => true | _ => false

/-- The emitter takes one more listener under a new name: ids of a `SafeEventEmitter` do not wrap round; a single-listener emitter is empty. -/
def Em.room : Em → Prop
  | .safe s => s.last + 1 < 2 ^ 32
  | .multi _ => True
  | .single s => s.registered = false

/-- How the provider has to be used: every topic for events or for the scheduler, not both; a listener name is not registered twice; emitters for a single
listener get a single listener; and the conditions of C30 for the loop. -/
def Ok (s : St D F) : Act D F → Prop
  | .getPublisher n => s.sched ≠ some n
  | .getSubscriber n _ => s.subs.lookup n = none → s.ext.room
  | .getScheduler n => s.sched = none → schedName n ∉ s.pubs ∧ s.subs.lookup (schedName n) = none ∧ s.ext.room
  | .reg i l => ∀ o, s.objs[i]? = some (.sub o) → o.map l = none ∧ o.em.room
  | .once i => ∀ o, s.objs[i]? = some (.sub o) → o.em.room
  | .loop a => EvLoop.OkAct s.loop a
  | _ => True

/-- A user has a pointer to a subscriber from `getSubscriber` of a topic, which is not the scheduler's. -/
def OkPtr (s : St D F) : Act D F → Prop
  | .reg i _ | .once i | .rem i _ => ∃ o, s.objs[i]? = some (.sub o)
  | _ => True

inductive Reach (k : Nat) (c : Bool) (kind : Kind) (P : St D F → Act D F → Prop) : St D F → Prop where
  | init : Reach k c kind P (St.init kind)
  | step {s s' a} : Reach k c kind P s → P s a → step k c s a = some s' → Reach k c kind P s'

end Verif.ElD
