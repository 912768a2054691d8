import Verif.Model.SafeEmitter
import Verif.Model.MultiEmitter

/-!
Model of `kpsr::EventEmitterSubscriber` (CORE/event_emitter_subscriber.h) on top of an event emitter: the map from listener
names to listener ids.  The emitter is a parameter; the two instances are the emitters modelled before, with the event
name of the subscriber fixed.
-/

namespace Verif.Sub

/-- What the subscriber uses of `EventEmitterInterface`. -/
structure Emitter (σ κ β ε : Type) where
  /-- `on(container, listenerName, subscriberName, callback)` -/
  on : σ → κ → β → σ × Nat
  /-- `removeListener(container, id)`; `none` = exception -/
  remove : σ → Nat → Option σ
  /-- `emitEvent` of the name of this subscriber: the callbacks called -/
  emit : σ → ε → σ × List (β × ε)

variable {σ κ β ε : Type} [DecidableEq κ]

structure St (σ κ : Type) where
  em : σ
  /-- `_listenersMap` -/
  map : κ → Option Nat

/-- `registerListener` (97-112) and `registerSharedPtrListener` (119-131) with a callback. (Without one both throw.) -/
def register (E : Emitter σ κ β ε) (s : St σ κ) (name : κ) (cb : β) : St σ κ :=
  let r := E.on s.em name cb
  ⟨r.1, upd s.map name (some r.2)⟩

/-- `removeListener` (151-162); `none` = the exception of the emitter passes through, nothing is changed. -/
def remove (E : Emitter σ κ β ε) (s : St σ κ) (name : κ) : Option (St σ κ) :=
  match s.map name with
  | none => some s
  | some id =>
    match E.remove s.em id with
    | none => none
    | some em => some ⟨em, upd s.map name none⟩

/-- `getSubscriptionStats` (168-175): `_listenersMap[name]` inserts 0 for an unknown name.  Only the effect on the map is
modelled. -/
def queryStats (s : St σ κ) (name : κ) : St σ κ :=
  match s.map name with
  | some _ => s
  | none => { s with map := upd s.map name (some 0) }

inductive Op (κ β ε : Type) where
  | reg (name : κ) (cb : β)
  | rem (name : κ)
  | stats (name : κ)
  | emit (e : ε)

inductive Res (β ε : Type) where
  | done
  | threw
  | calls (l : List (β × ε))
  deriving DecidableEq, Repr

def apply (E : Emitter σ κ β ε) (s : St σ κ) : Op κ β ε → St σ κ × Res β ε
  | .reg n cb => (register E s n cb, .done)
  | .rem n => match remove E s n with
    | none => (s, .threw)
    | some s' => (s', .done)
  | .stats n => (queryStats s n, .done)
  | .emit e => let r := E.emit s.em e; ({ s with em := r.1 }, .calls r.2)

def runOps (E : Emitter σ κ β ε) (s : St σ κ) : List (Op κ β ε) → St σ κ × List (Res β ε)
  | [] => (s, [])
  | o :: os => let r := apply E s o; let q := runOps E r.1 os; (q.1, r.2 :: q.2)

/-- `SafeEventEmitter` with event name `ev`. -/
def safeE [LinearOrder κ] (ev : κ) : Emitter (SafeEE.St κ β) κ β ε where
  on s _ cb := SafeEE.on s ev cb
  remove s id := SafeEE.removeListener s id
  emit s e := let r := SafeEE.emit s ev e; (r.1, r.2.1.map (fun c => (c.2.1, c.2.2)))

/-- `UnsafeMultiListenerEventEmitter` with event name `ev` (a null callback would be `std::bad_function_call`; it is never
called, `MultiEE.C17_never_crashes`). -/
def multiE (c : Bool) (ev : κ) : Emitter (MultiEE.St κ β) κ β ε where
  on s l cb := MultiEE.on s c l ev cb
  remove s id := some (MultiEE.remove s c id)
  emit s e := (s, ((MultiEE.emit s ev e).getD []).map (fun c => (c.2.1, c.2.2)))

end Verif.Sub
