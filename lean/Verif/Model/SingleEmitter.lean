import Verif.Basic

/-!
Model of `kpsr::UnsafeSingleListenerEventEmitter` (CORE/unsafe_single_listener_event_emitter.h).
Histories of calls of one thread; callbacks are labels.  `once` throws always (104-109) and is left out.
-/

namespace Verif.SingleEE

structure St (κ β : Type) where
  /-- `_listenerRegistered` -/
  registered : Bool
  /-- `_singleListener`; `none` is the empty lambda set by `removeListener` (119) or the initial null function -/
  listener : Option β
  /-- `_subscriberName` (initially the empty string, here `none`) -/
  sub : Option κ
  /-- `_singleListenerStats->totalDiscardedEvents`, `none` if null -/
  stats : Option Nat
  /-- `_singleListenerWrapper` uses the statistics -/
  wrapStats : Bool
  deriving DecidableEq, Repr

def St.init {κ β : Type} : St κ β := ⟨false, none, none, none, false⟩

variable {κ β ε : Type} [DecidableEq κ]

/-- `on` (57-96); `c`: a container is given.  A new statistics object replaces the old one; without
container the old pointer stays. -/
def on (s : St κ β) (c : Bool) (sub : κ) (cb : β) : St κ β × Nat :=
  if s.registered then (s, 0)
  else (⟨true, some cb, some sub, if c then some 0 else s.stats, c⟩, 0)

/-- `removeListener` (115-125). -/
def remove (s : St κ β) (c : Bool) (id : Nat) : St κ β :=
  if id = 0 then { s with registered := false, listener := none, stats := if c then none else s.stats }
  else s

/-- `removeAllListeners` (172) -/
def removeAll (s : St κ β) (c : Bool) : St κ β := remove s c 0

/-- Outcome of an emission: calls made, or null pointer access of the statistics in the wrapper (74-82). -/
inductive EmitRes (β ε : Type) where
  | calls (l : List (β × ε))
  | nullAccess
  deriving DecidableEq, Repr

/-- `emitEvent` (133-142). -/
def emit (s : St κ β) (sub : κ) (e : ε) : EmitRes β ε :=
  if s.sub ≠ some sub ∨ s.registered = false then .calls []
  else if s.wrapStats && s.stats.isNone then .nullAccess
  else match s.listener with
    | none => .calls []
    | some cb => .calls [(cb, e)]

/-- `discardEvent` (149-157): does not look at `_listenerRegistered`. -/
def discard (s : St κ β) (sub : κ) : St κ β :=
  if s.sub ≠ some sub then s else { s with stats := s.stats.map (· + 1) }

/-- `getListenerStats` (164-170) -/
def getStats (s : St κ β) (id : Nat) : Option Nat := if id = 0 then s.stats else none

inductive Op (κ β ε : Type) where
  | on (c : Bool) (sub : κ) (cb : β)
  | remove (c : Bool) (id : Nat)
  | removeAll (c : Bool)
  | emit (sub : κ) (e : ε)
  | discard (sub : κ)

inductive Res (β ε : Type) where
  | id (n : Nat)
  | done
  | emitted (r : EmitRes β ε)
  deriving DecidableEq, Repr

def apply (s : St κ β) : Op κ β ε → St κ β × Res β ε
  | .on c n cb => let r := on s c n cb; (r.1, .id r.2)
  | .remove c id => (remove s c id, .done)
  | .removeAll c => (removeAll s c, .done)
  | .emit n e => (s, .emitted (emit s n e))
  | .discard n => (discard s n, .done)

def runOps (s : St κ β) : List (Op κ β ε) → St κ β × List (Res β ε)
  | [] => (s, [])
  | o :: os => let r := apply s o; let q := runOps r.1 os; (q.1, r.2 :: q.2)

end Verif.SingleEE
