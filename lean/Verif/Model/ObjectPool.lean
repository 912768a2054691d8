import Verif.Basic

/-!
Model of `kpsr::SmartObjectPool` (CORE/smart_object_pool.h) and `kpsr::ObjectPoolPublisher`
(CORE/object_pool_publisher.h).

The lock-free stack under the pool is represented by the list of its elements (top first) with its capacity;
that this is what its users observe is C01/C02 (`Props/LockFreeStack.lean`).  Objects are numbered; object
contents are kept apart in the publisher model.
-/

namespace Verif.Pool

/-- State of a `SmartObjectPool`.  `stack` is `pool_` (LockFreeStack), `hidden` the objects in its `data_buffer` that no link of
the stack leads to, `fails` is `objectPoolFails`,
`alive` tells whether `this_ptr_` is still owned (destructor not run).  `deleted` and `finalized` log the
objects deleted / given to the finalizer function, in order. -/
structure Pool where
  cap : Nat
  stack : List Nat
  hidden : List Nat
  fails : Nat
  alive : Bool
  deleted : List Nat
  finalized : List Nat
  deriving Repr

/-- Constructor (smart_object_pool.h 74-96 with lock_free_stack.h 67-86): `size` objects `0 … size-1`.  The links of the stack
have 16 bits with 65535 for the end (lock_free_stack.h 30), so only the first 65535 objects can ever be taken (C02).  Size 0 and negative
sizes are left out: the constructor of the stack writes outside its arrays or cannot allocate them. -/
def Pool.init (size : Nat) : Pool :=
  { cap := min size 65535, stack := List.range (min size 65535), hidden := (List.range size).drop 65535, fails := 0, alive := true,
    deleted := [], finalized := [] }

/-- Result of `acquire`: a handle to an object, or `std::out_of_range`. -/
inductive Acq where
  | handle (o : Nat)
  | outOfRange
  deriving DecidableEq, Repr

/-- `acquire` (smart_object_pool.h 113-126). -/
def Pool.acquire (p : Pool) : Pool × Acq :=
  match p.stack with
  | o :: r => ({ p with stack := r }, .handle o)
  | [] => ({ p with fails := p.fails + 1 }, .outOfRange)

/-- The deleter of a handle (smart_object_pool.h 50-58) with `add` (64): the object goes back to the
stack if the pool is alive; the result of `push` is ignored, so a refused object is destroyed with the
`unique_ptr` argument; if the pool is gone the object is deleted. -/
def Pool.release (p : Pool) (o : Nat) : Pool :=
  if p.alive then
    if p.stack.length < p.cap then { p with stack := o :: p.stack }
    else { p with deleted := o :: p.deleted }
  else { p with deleted := o :: p.deleted }

/-- Destructor (smart_object_pool.h 98-108): every object still in the stack is finalized and deleted; `delete pool_` deletes
the objects left in `data_buffer`. -/
def Pool.destroy (p : Pool) : Pool :=
  { p with stack := [], hidden := [], alive := false, deleted := p.hidden ++ (p.stack.reverse ++ p.deleted),
           finalized := p.stack.reverse ++ p.finalized }

/-- A client operation on a pool. -/
inductive Op where
  | acquire
  | release (o : Nat)
  | destroy
  deriving DecidableEq, Repr

/-- Pool together with the objects its clients hold. -/
structure Sys where
  pool : Pool
  out : List Nat
  deriving Repr

/-- One client operation.  `none`: the client breaks the rules of C++ (releases a handle it does not
have, uses or destroys a destroyed pool). -/
def Sys.step (s : Sys) : Op → Option Sys
  | .acquire =>
    if s.pool.alive then
      match s.pool.acquire with
      | (p, .handle o) => some { pool := p, out := o :: s.out }
      | (p, .outOfRange) => some { s with pool := p }
    else none
  | .release o =>
    if o ∈ s.out then some { pool := s.pool.release o, out := s.out.erase o } else none
  | .destroy => if s.pool.alive then some { s with pool := s.pool.destroy } else none

/-- A history of client operations. -/
def Sys.run : Sys → List Op → Option Sys
  | s, [] => some s
  | s, op :: rest =>
    match s.step op with
    | none => none
    | some s' => Sys.run s' rest

/-- A new pool; nothing handed out. -/
def Sys.init (size : Nat) : Sys := { pool := Pool.init size, out := [] }

/-! ### ObjectPoolPublisher -/

/-- Constructor arguments of `ObjectPoolPublisher<T>` (object_pool_publisher.h 52-58): `dflt` is `T()`,
`initF` the effect of the initializer function, `cloner e dest` the new content of the destination. -/
structure Cfg (T : Type) where
  poolSize : Nat
  dflt : T
  initF : Option (T → T)
  cloner : Option (T → T → T)

/-- `_initializerFunction` (65-69): the user's function or nothing. -/
def Cfg.initFun {T : Type} (c : Cfg T) : T → T := c.initF.getD id

/-- `_eventCloner` (70-76): the user's function or assignment. -/
def Cfg.clone {T : Type} (c : Cfg T) : T → T → T := c.cloner.getD (fun e _ => e)

/-- State of a publisher: the objects in the pool (`none` if `poolSize = 0`, line 60), the contents of all
event objects ever created, the next unused object number, `_totalEventAllocations`, and the events that
subscribers still hold a `shared_ptr` to. -/
structure Pub (T : Type) where
  pool : Option Pool
  content : Nat → T
  next : Nat
  allocs : Nat
  live : List Nat

/-- Constructor (object_pool_publisher.h 60-64, smart_object_pool.h 80-87). -/
def Pub.init {T : Type} (c : Cfg T) : Pub T where
  pool := if c.poolSize = 0 then none else some (Pool.init c.poolSize)
  content := fun _ => c.initFun c.dflt
  next := c.poolSize
  allocs := c.poolSize
  live := []

/-- A new object outside the pool with the given content; counted in `_totalEventAllocations`. -/
def Pub.fresh {T : Type} (s : Pub T) (v : T) : Pub T × Nat :=
  ({ s with content := upd s.content s.next v, next := s.next + 1, allocs := s.allocs + 1,
            live := s.next :: s.live }, s.next)

/-- `internalPublish(const T&)` (141-145) with `_eventCreatorWrapper` (81-95 pool, 111-116 no pool and
default cloner, 118-124 no pool and cloner).  The event handed to the underlying publisher is the returned
object; its content is `content` at that number. -/
def Pub.publish {T : Type} (c : Cfg T) (s : Pub T) (e : T) : Pub T × Nat :=
  match s.pool with
  | some p =>
    match p.acquire with
    | (p', .handle o) =>
      ({ s with pool := some p', content := upd s.content o (c.clone e (s.content o)),
                live := o :: s.live }, o)
    | (p', .outOfRange) =>
      Pub.fresh { s with pool := some p' } (c.clone e (c.initFun c.dflt))
  | none =>
    match c.cloner with
    | none => s.fresh e
    | some cl => s.fresh (cl e (c.initFun c.dflt))

/-- `processAndPublish` (151-156) with `_processEventCreatorWrapper` (96-108 pool, 126-131 no pool). -/
def Pub.process {T : Type} (c : Cfg T) (s : Pub T) (f : T → T) : Pub T × Nat :=
  match s.pool with
  | some p =>
    match p.acquire with
    | (p', .handle o) =>
      ({ s with pool := some p', content := upd s.content o (f (c.initFun (s.content o))),
                live := o :: s.live }, o)
    | (p', .outOfRange) => Pub.fresh { s with pool := some p' } (f (c.initFun c.dflt))
  | none => s.fresh (f (c.initFun c.dflt))

/-- The last `shared_ptr` to event `o` goes away: pooled objects run the pool deleter, others are freed. -/
def Pub.drop {T : Type} (c : Cfg T) (s : Pub T) (o : Nat) : Pub T :=
  { s with pool := if o < c.poolSize then s.pool.map (·.release o) else s.pool,
           live := s.live.erase o }

/-- Operations of a publisher and its subscribers. -/
inductive POp (T : Type) where
  | publish (e : T)
  | process (f : T → T)
  | drop (o : Nat)

/-- One operation: new state and, for publications, the published object.  `none`: a drop of an event nobody
holds. -/
def Pub.step {T : Type} (c : Cfg T) (s : Pub T) : POp T → Option (Pub T × Option Nat)
  | .publish e => let r := s.publish c e; some (r.1, some r.2)
  | .process f => let r := s.process c f; some (r.1, some r.2)
  | .drop o => if o ∈ s.live then some (s.drop c o, none) else none

/-- A history. -/
def Pub.run {T : Type} (c : Cfg T) : Pub T → List (POp T) → Option (Pub T)
  | s, [] => some s
  | s, op :: rest =>
    match s.step c op with
    | none => none
    | some (s', _) => Pub.run c s' rest

end Verif.Pool
