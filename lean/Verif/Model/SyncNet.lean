import Verif.Model.ObjectPool
import Verif.Spec.SyncNet

/-!
Model of networks of `kpsr::EventEmitterMiddlewareProvider` (CORE/event_emitter_middleware_provider.h 40-94): a publisher with its pool
(`EventEmitterPublisher`, CORE/event_emitter_publisher.h 36-80, on `ObjectPoolPublisher`) that hands the event to an emitter
in the same call (`internalPublish`, 69-73), and listeners that publish again, on the same or other providers, directly or through
`getProcessForwarder` (75-82).

Simplifications: one event type for all nodes (a sum type if there are several); the listeners do not change during a publication
(what registering and removing during an emission does is C14, C15, C56), none of them is a `once` listener (C16) and there is one
thread (the class is "synchronous and single-threaded", event_emitter_publisher.h 36).  The emitter calls the listeners of
the event name in registration order, each once: C14 (`SafeEventEmitter`), C29 (the multi-listener emitter).  sdk, assumed:
`Publisher::publish` calls `internalPublish` once; `EventTransformForwarder::onEventReceived(m)` calls `processAndPublish` once
with the transformation applied to `m`.  Listeners do not catch exceptions; unwinding destroys the `shared_ptr`s of the calls.
-/

namespace Verif.SyncNet

open Verif.Pool

/-- What a listener asks a publisher to do: `publish(e)`, or `processAndPublish(f)` (this is what a process forwarder does). -/
inductive Cmd (T : Type) where
  | publish (e : T)
  | process (f : T → T)

/-- A listener: what it does when called with a value, whether it throws then, and whether it keeps the event
(`registerSharedPtrListener`, event_emitter_subscriber.h 108-120). -/
structure Lis (T : Type) where
  name : Nat
  react : T → List (Nat × Cmd T)
  fails : T → Bool
  keeps : T → Bool

/-- A network: constructor arguments of the publishers and listeners of the emitters. -/
structure Net (T : Type) where
  cfg : Nat → Cfg T
  lis : Nat → List (Lis T)

/-- `held`: the references kept by listeners (node, object and, ghost, the value at that time); `log`: the calls of listeners. -/
structure St (T : Type) where
  pub : Nat → Pub T
  held : List (Nat × Nat × T)
  log : List (Nat × Nat × T)

def St.init {T : Type} (net : Net T) : St T := ⟨fun n => Pub.init (net.cfg n), [], []⟩

variable {T : Type}

/-- The event object is taken and filled: `internalPublish(const T &)` (object_pool_publisher.h 141-145) or `processAndPublish`
(151-156). -/
def St.take (net : Net T) (s : St T) (n : Nat) : Cmd T → St T × Nat
  | .publish e => let r := (s.pub n).publish (net.cfg n) e; ({ s with pub := upd s.pub n r.1 }, r.2)
  | .process f => let r := (s.pub n).process (net.cfg n) f; ({ s with pub := upd s.pub n r.1 }, r.2)

/-- The `shared_ptr` of the publication is destroyed (return or unwinding of object_pool_publisher.h 141-156): the event is dropped if
no listener has kept a copy. -/
def St.done (net : Net T) (s : St T) (n o : Nat) : St T :=
  if s.held.any (fun h => decide (h.1 = n ∧ h.2.1 = o)) then s
  else { s with pub := upd s.pub n ((s.pub n).drop (net.cfg n) o) }

/-- A loop that an exception ends. -/
def inOrderS {α : Type} (f : St T → α → Option (St T × Bool)) : St T → List α → Option (St T × Bool)
  | s, [] => some (s, false)
  | s, a :: as =>
    match f s a with
    | none => none
    | some (s', true) => some (s', true)
    | some (s', false) => inOrderS f s' as

/-- The emitter calls a listener with the event `o` (safe_event_emitter.h 133-134, `runCallback`): the listener reads the object as
it is now, may keep the pointer, does what it does (`rec`) and may throw. -/
def callOne (rec : St T → List (Nat × Cmd T) → Option (St T × Bool)) (n o : Nat) (s : St T) (l : Lis T) : Option (St T × Bool) :=
  let v := (s.pub n).content o
  match rec { s with log := s.log ++ [(n, l.name, v)], held := if l.keeps v then (n, o, v) :: s.held else s.held } (l.react v) with
  | none => none
  | some (s', thrown) => some (s', thrown || l.fails v)

/-- One publication: `internalPublish` → `emitEvent` (event_emitter_publisher.h 69-73) → all listeners → return. -/
def publishOne (net : Net T) (rec : St T → List (Nat × Cmd T) → Option (St T × Bool)) (s : St T) (p : Nat × Cmd T) :
    Option (St T × Bool) :=
  let r := s.take net p.1 p.2
  match inOrderS (callOne rec p.1 r.2) r.1 (net.lis p.1) with
  | none => none
  | some (s', thrown) => some (s'.done net p.1 r.2, thrown)

/-- A sequence of publications with the calls nested in them; `none`: nested deeper than `depth`. -/
def exec (net : Net T) : (depth : Nat) → St T → List (Nat × Cmd T) → Option (St T × Bool)
  | 0, s, [] => some (s, false)
  | 0, _, _ :: _ => none
  | depth + 1, s, ps => inOrderS (publishOne net (exec net depth)) s ps

/-- A listener (or whoever it gave it to) destroys a pointer it kept. -/
def letGo (net : Net T) [DecidableEq T] (s : St T) (h : Nat × Nat × T) : Option (St T) :=
  if h ∈ s.held then some ({ s with held := s.held.erase h }.done net h.1 h.2.1) else none

/-! ### For the statements (no code) -/

/-- The free objects of a publisher. -/
def stackOf (p : Pub T) : List Nat :=
  match p.pool with
  | some q => q.stack
  | none => []

/-- The value a command publishes, in a new event. -/
def Cmd.val (c : Cfg T) : Cmd T → T
  | .publish e => e
  | .process f => f (c.initFun c.dflt)

/-- What a listener does, in values. -/
def Lis.spec (net : Net T) (l : Lis T) : SLis T where
  name := l.name
  out v := (l.react v).map (fun p => (p.1, p.2.val (net.cfg p.1)))
  fails := l.fails

/-- The network, in values. -/
def Net.spec (net : Net T) (n : Nat) : List (SLis T) := (net.lis n).map (Lis.spec net)

/-- A command whose function writes the whole event. -/
def Cmd.Whole (c : Cfg T) : Cmd T → Prop
  | .publish _ => True
  | .process f => ∀ old, f (c.initFun old) = f (c.initFun c.dflt)

/-- Cloners and transformations write the whole event. -/
structure Net.Whole (net : Net T) : Prop where
  cloner : ∀ n cl, (net.cfg n).cloner = some cl → ∀ e old, cl e old = e
  react : ∀ n l, l ∈ net.lis n → ∀ v, ∀ p ∈ l.react v, p.2.Whole (net.cfg p.1)

/-- No listener keeps events. -/
def NoKeeper (net : Net T) : Prop := ∀ n l, l ∈ net.lis n → ∀ v, l.keeps v = false

/-- The states between the publications of the program; its own commands write the whole event, like those of the listeners. -/
inductive Reach (net : Net T) [DecidableEq T] : St T → Prop
  | init : Reach net (St.init net)
  | call {s s' : St T} {depth : Nat} {ps : List (Nat × Cmd T)} {thrown : Bool} :
      Reach net s → (∀ p ∈ ps, p.2.Whole (net.cfg p.1)) → exec net depth s ps = some (s', thrown) → Reach net s'
  | letGo {s s' : St T} {h : Nat × Nat × T} : Reach net s → letGo net s h = some s' → Reach net s'

end Verif.SyncNet
