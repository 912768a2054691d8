import Verif.Model.MultiEmitter
import Verif.Model.SingleEmitter

/-!
Listeners that use the emitter that is calling them: the loops of `emitEvent` in the two emitters without lock
(CORE/unsafe_multi_listener_event_emitter.h 189-198, CORE/unsafe_single_listener_event_emitter.h 133-142), opened at the calls of
the listeners.  (`SafeEventEmitter` is treated in Model/SafeEmitter.lean, `cstep`.)
-/

namespace Verif.MultiEE

/-- An emission under way (range-for, 195-197): subscriber, ids still to be called, and the listener that is running. -/
structure Frame (κ : Type) where
  sub : κ
  rest : List Nat
  running : Option Nat
  /-- ghost: the ids at the beginning -/
  all : List Nat
  /-- ghost: the ids called -/
  called : List Nat
  deriving DecidableEq, Repr

structure RSt (κ β : Type) where
  em : St κ β
  /-- emissions, the innermost first -/
  frames : List (Frame κ)
  /-- an iterator, reference or function object in use has been invalidated: from here on the behaviour is undefined -/
  undef : Bool
  /-- a null function has been called -/
  crash : Bool

def RSt.init {κ β : Type} : RSt κ β := ⟨St.init, [], false, false⟩

variable {κ β : Type} [DecidableEq κ]

inductive RAct (κ β : Type) where
  /-- `on`; `realloc`: `_listeners.push_back` needs new memory -/
  | on (c : Bool) (lname sub : κ) (cb : β) (realloc : Bool)
  | remove (c : Bool) (id : Nat)
  | removeAll
  | discard (sub : κ)
  /-- `emitEvent` is called -/
  | start (sub : κ)
  /-- the loop calls the next listener -/
  | call
  /-- the listener returns -/
  | back
  /-- `emitEvent` returns -/
  | ret

/-- The emitter may be used by the running listener, or when there is no emission. -/
def RSt.free (s : RSt κ β) : Bool :=
  match s.frames with
  | [] => true
  | f :: _ => f.running.isSome

/-- `on` invalidates: new memory of `_listeners` (104, 101) moves and destroys the functions that are running; `push_back` on the vector that is
iterated (106) invalidates its end iterator, and with new memory all of them.  References into an `unordered_map` stay valid. -/
def onBreaks (s : RSt κ β) (lname sub : κ) (realloc : Bool) : Bool :=
  match s.em.names.find? (fun p => p.1 = lname) with
  | some _ => false
  | none => (realloc && !s.frames.isEmpty) || s.frames.any (fun f => decide (f.sub = sub))

/-- `removeListener` invalidates: `_listeners[id] = nullptr` (131) destroys the function if it is running; `erase` (159) on the vector that is
iterated invalidates the iterators from there to the end, or destroys the vector (161). -/
def removeBreaks (s : RSt κ β) (id : Nat) : Bool :=
  decide (id < s.em.fns.length) && s.frames.any (fun f => decide (f.running = some id) || decide (id ∈ s.em.subs f.sub))

def rstep (s : RSt κ β) : RAct κ β → Option (RSt κ β)
  | .on c l n cb realloc =>
    if s.free then some { s with em := (on s.em c l n cb).1, undef := s.undef || onBreaks s l n realloc } else none
  | .remove c id => if s.free then some { s with em := remove s.em c id, undef := s.undef || removeBreaks s id } else none
  | .removeAll => if s.free then some { s with em := removeAll s.em, undef := s.undef || !s.frames.isEmpty } else none
  | .discard n => if s.free then some { s with em := discard s.em n } else none
  | .start n => if s.free then some { s with frames := ⟨n, s.em.subs n, none, s.em.subs n, []⟩ :: s.frames } else none
  | .call =>
    match s.frames with
    | ⟨n, id :: rest, none, all, called⟩ :: fs =>
      match s.em.fns[id]? with
      | some (some _) => some { s with frames := ⟨n, rest, some id, all, called ++ [id]⟩ :: fs }
      | _ => some { s with crash := true }
    | _ => none
  | .back =>
    match s.frames with
    | ⟨n, rest, some _, all, called⟩ :: fs => some { s with frames := ⟨n, rest, none, all, called⟩ :: fs }
    | _ => none
  | .ret =>
    match s.frames with
    | ⟨_, [], none, _, _⟩ :: fs => some { s with frames := fs }
    | _ => none

def rrun (s : RSt κ β) : List (RAct κ β) → Option (RSt κ β)
  | [] => some s
  | a :: as => (rstep s a).bind (fun s' => rrun s' as)

inductive RReach : RSt κ β → Prop
  | init : RReach RSt.init
  | step {s s' a} : RReach s → rstep s a = some s' → RReach s'

end Verif.MultiEE

namespace Verif.SingleEE

/-- A call of the wrapper under way (70-90): does the wrapper use the statistics, and which listener is running. -/
structure Frame (β : Type) where
  useStats : Bool
  cb : Option β
  deriving DecidableEq, Repr

structure RSt (κ β : Type) where
  em : St κ β
  frames : List (Frame β)
  /-- `_singleListener` or `_singleListenerWrapper` was assigned while it was running -/
  replaced : Bool
  /-- the statistics pointer was used when null -/
  nullAccess : Bool
  deriving DecidableEq, Repr

def RSt.init {κ β : Type} : RSt κ β := ⟨St.init, [], false, false⟩

variable {κ β : Type} [DecidableEq κ]

inductive RAct (κ β : Type) where
  | on (c : Bool) (sub : κ) (cb : β)
  | remove (c : Bool) (id : Nat)
  | discard (sub : κ)
  /-- `emitEvent`: calls the listener or returns at once -/
  | emit (sub : κ)
  /-- the listener returns and `emitEvent` with it; the wrapper stops the measure (80) -/
  | back

def rstep (s : RSt κ β) : RAct κ β → Option (RSt κ β)
  | .on c n cb => some { s with em := (on s.em c n cb).1, replaced := s.replaced || (!s.frames.isEmpty && !s.em.registered) }
  | .remove c id => some { s with em := remove s.em c id, replaced := s.replaced || (!s.frames.isEmpty && decide (id = 0)) }
  | .discard n => some { s with em := discard s.em n }
  | .emit n =>
    if s.em.sub ≠ some n ∨ s.em.registered = false then some s
    else some { s with frames := ⟨s.em.wrapStats, s.em.listener⟩ :: s.frames,
                       nullAccess := s.nullAccess || (s.em.wrapStats && s.em.stats.isNone) }
  | .back =>
    match s.frames with
    | f :: fs => some { s with frames := fs, nullAccess := s.nullAccess || (f.useStats && s.em.stats.isNone) }
    | [] => none

def rrun (s : RSt κ β) : List (RAct κ β) → Option (RSt κ β)
  | [] => some s
  | a :: as => (rstep s a).bind (fun s' => rrun s' as)

inductive RReach : RSt κ β → Prop
  | init : RReach RSt.init
  | step {s s' a} : RReach s → rstep s a = some s' → RReach s'

end Verif.SingleEE
