import Verif.Model.ObjectPool

/-!
`ObjectPoolPublisher` (CORE/object_pool_publisher.h) with user functions that may throw: the cloner, the initializer and the function given to
`processAndPublish`.  A function that throws may have written part of the event before.  The exceptions of the initializer inside the
constructor are left out (there is no publisher then).
-/

namespace Verif.PubThrow
open Verif.Pool

/-- What a user function throws: `std::out_of_range`, which the publisher catches, or something else. -/
inductive Exc where
  | outOfRange
  | other
  deriving DecidableEq, Repr

/-- Constructor arguments; a user function gives the content it leaves behind and what it throws, if anything. -/
structure Cfg (T : Type) where
  poolSize : Nat
  dflt : T
  initF : Option (T → T × Option Exc)
  cloner : Option (T → T → T × Option Exc)

/-- `_initializerFunction` (67-71). -/
def Cfg.initFun {T : Type} (c : Cfg T) : T → T × Option Exc := c.initF.getD fun d => (d, none)

/-- `_eventCloner` (72-78). -/
def Cfg.clone {T : Type} (c : Cfg T) : T → T → T × Option Exc := c.cloner.getD fun e _ => (e, none)

/-- State; `Pub` of Model/ObjectPool and the log of calls of the cloner and the initializer: object and exception. -/
structure St (T : Type) where
  pub : Pub T
  clones : List (Nat × Option Exc)
  inits : List (Nat × Option Exc)

/-- A publisher whose pooled events were initialised without exception (60-66). -/
def St.init {T : Type} (c : Cfg T) : St T :=
  ⟨{ pool := if c.poolSize = 0 then none else some (Pool.init c.poolSize)
     content := fun _ => (c.initFun c.dflt).1
     next := c.poolSize
     allocs := c.poolSize
     live := [] }, [], []⟩

/-- Result of a call: the event given to the underlying publisher, or an exception to the caller. -/
inductive Res where
  | event (o : Nat)
  | threw (x : Exc)
  deriving DecidableEq, Repr

/-- A function runs on object `o`. -/
def St.write {T : Type} (s : St T) (o : Nat) (v : T) : St T := { s with pub := { s.pub with content := upd s.pub.content o v } }

/-- `std::make_shared<T>()`, a new object with the given content, and the counter.  (The counter is increased before or
after the allocation; failing allocations are not modelled.) -/
def St.make {T : Type} (s : St T) (v : T) : St T × Nat := ({ s with pub := (s.pub.fresh v).1 }, s.pub.next)

/-- The last pointer to the event of a call that ends with an exception goes away. -/
def St.drop {T : Type} (c : Cfg T) (s : St T) (o : Nat) : St T :=
  { s with pub := { s.pub with pool := if o < c.poolSize then s.pub.pool.map (·.release o) else s.pub.pool, live := s.pub.live.erase o } }

/-- Call of `_initializerFunction` on object `o`. -/
def St.callInit {T : Type} (c : Cfg T) (s : St T) (o : Nat) : St T × Option Exc :=
  let r := c.initFun (s.pub.content o)
  ({ s.write o r.1 with inits := s.inits ++ [(o, r.2)] }, r.2)

/-- Call of `_eventCloner(e, …)` on object `o`. -/
def St.callClone {T : Type} (c : Cfg T) (s : St T) (e : T) (o : Nat) : St T × Option Exc :=
  let r := c.clone e (s.pub.content o)
  ({ s.write o r.1 with clones := s.clones ++ [(o, r.2)] }, r.2)

/-- A new event is made, initialised and cloned into (89-93, 118-124). -/
def St.freshEvent {T : Type} (c : Cfg T) (s : St T) (e : T) : St T × Res :=
  let m := s.make c.dflt
  let i := m.1.callInit c m.2
  match i.2 with
  | some x => (i.1.drop c m.2, .threw x)
  | none =>
    let k := i.1.callClone c e m.2
    match k.2 with
    | some x => (k.1.drop c m.2, .threw x)
    | none => (k.1, .event m.2)

/-- `_eventCreatorWrapper` called by `internalPublish(const T&)` (141-145): 81-95 with a pool, where the call of the cloner is inside the `try`
block that is meant for the empty pool (82-86); 111-116 without pool and cloner; 118-124 without pool. -/
def St.publish {T : Type} (c : Cfg T) (s : St T) (e : T) : St T × Res :=
  match s.pub.pool with
  | some p =>
    match p.acquire with
    | (p', .handle o) =>
      let k := St.callClone c { s with pub := { s.pub with pool := some p', live := o :: s.pub.live } } e o
      match k.2 with
      | none => (k.1, .event o)
      -- the event is given back before the handler runs
      | some .outOfRange => (k.1.drop c o).freshEvent c e
      | some .other => (k.1.drop c o, .threw .other)
    | (p', .outOfRange) => St.freshEvent c { s with pub := { s.pub with pool := some p' } } e
  | none =>
    match c.cloner with
    | none => ((s.make e).1, .event s.pub.next)
    | some _ => s.freshEvent c e

/-- The rest of `processAndPublish` once an event is there: initializer (106, 129) and the user's function (154). -/
def St.fill {T : Type} (c : Cfg T) (s : St T) (f : T → T × Option Exc) (o : Nat) : St T × Res :=
  let i := s.callInit c o
  match i.2 with
  | some x => (i.1.drop c o, .threw x)
  | none =>
    let r := f (i.1.pub.content o)
    match r.2 with
    | some x => ((i.1.write o r.1).drop c o, .threw x)
    | none => (i.1.write o r.1, .event o)

/-- `processAndPublish(f)` (151-156) with `_processEventCreatorWrapper` (96-108 pool: only the acquisition is inside the `try` block, 126-131 no
pool). -/
def St.process {T : Type} (c : Cfg T) (s : St T) (f : T → T × Option Exc) : St T × Res :=
  match s.pub.pool with
  | some p =>
    match p.acquire with
    | (p', .handle o) => St.fill c { s with pub := { s.pub with pool := some p', live := o :: s.pub.live } } f o
    | (p', .outOfRange) =>
      let m := St.make { s with pub := { s.pub with pool := some p' } } c.dflt
      m.1.fill c f m.2
  | none =>
    let m := s.make c.dflt
    m.1.fill c f m.2

/-- Operations of a publisher and its subscribers. -/
inductive Op (T : Type) where
  | publish (e : T)
  | process (f : T → T × Option Exc)
  | drop (o : Nat)

/-- One operation; `none`: a drop of an event nobody holds. -/
def St.step {T : Type} (c : Cfg T) (s : St T) : Op T → Option (St T × Option Res)
  | .publish e => some ((s.publish c e).1, some (s.publish c e).2)
  | .process f => some ((s.process c f).1, some (s.process c f).2)
  | .drop o => if o ∈ s.pub.live then some (s.drop c o, none) else none

/-- A history. -/
def St.run {T : Type} (c : Cfg T) : St T → List (Op T) → Option (St T)
  | s, [] => some s
  | s, op :: rest =>
    match s.step c op with
    | none => none
    | some (s', _) => St.run c s' rest

end Verif.PubThrow
