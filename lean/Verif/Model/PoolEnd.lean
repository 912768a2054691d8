import Verif.Basic

/-!
Model of the end of a `kpsr::SmartObjectPool` (CORE/smart_object_pool.h): one thread destroys the pool while other threads release objects
they acquired from it.

The stack under the pool is the list of its elements and its operations are atomic (C01, C67); here what matters is whether they run before or
after the memory of the stack is released.
-/

namespace Verif.PoolEnd

/-- Where an object is: in the pool; with a client; its deleter has locked `pool_` and not yet pushed; freed. -/
inductive Obj where
  | pooled
  | out
  | locked
  | freed
  deriving DecidableEq, Repr

/-- How far the destructor is (smart_object_pool.h 98-108 and the destruction of the members).  `alive`: not called; `popping`: in the loop;
`final o`: it has popped `o`; `drained`: the last `pop` found nothing; `stackGone`: `delete pool_` was executed, `this_ptr_` still exists (the
members are destroyed after the body); `selfGone`: `this_ptr_` is destroyed. -/
inductive Dtor where
  | alive
  | popping
  | final (o : Nat)
  | drained
  | stackGone
  | selfGone
  deriving DecidableEq, Repr

structure St where
  /-- `pool_`, top first -/
  stack : List Nat
  obj : Nat → Obj
  dtor : Dtor
  /-- objects given to the finalizer function -/
  finalized : List Nat
  /-- objects deleted, one entry per deletion -/
  deleted : List Nat
  /-- a deleter pushed to a stack that was deleted -/
  useAfterFree : Bool

/-- A pool of `n` objects (smart_object_pool.h 74-96). -/
def St.init (n : Nat) : St := ⟨List.range n, fun _ => .pooled, .alive, [], [], false⟩

/-- Scheduler choices. -/
inductive Act where
  | acquire
  /-- the deleter of `o` calls `pool_.lock()` -/
  | lock (o : Nat)
  /-- the deleter of `o` calls `add` -/
  | push (o : Nat)
  /-- one step of the destructor -/
  | dtor
  deriving DecidableEq, Repr

/-- Does `pool_.lock()` succeed?  `this_ptr_` is a member, so it outlives the body of the destructor. -/
def Dtor.lockable : Dtor → Bool
  | .selfGone => false
  | _ => true

/-- Does the stack still exist? -/
def Dtor.stackExists : Dtor → Bool
  | .stackGone => false
  | .selfGone => false
  | _ => true

/-- One step. -/
def step (s : St) : Act → Option St
  -- acquire (113-126); only while nobody destroys the pool
  | .acquire =>
    match s.dtor, s.stack with
    | .alive, o :: r => some { s with stack := r, obj := upd s.obj o .out }
    | _, _ => none
  -- operator() of ReturnToPool_Deleter (50-58): `lock`, else branch `D{}(ptr)`
  | .lock o =>
    if s.obj o = .out then
      if s.dtor.lockable then some { s with obj := upd s.obj o .locked }
      else some { s with obj := upd s.obj o .freed, deleted := s.deleted ++ [o] }
    else none
  -- `(*pool_ptr)->add(...)` (54, 64)
  | .push o =>
    if s.obj o = .locked then
      if s.dtor.stackExists then some { s with stack := o :: s.stack, obj := upd s.obj o .pooled }
      else some { s with useAfterFree := true }
    else none
  -- ~SmartObjectPool (98-108): `while (pool_->pop(t_ptr)) { finalizer; reset }  delete pool_;` then the members
  | .dtor =>
    match s.dtor with
    | .alive => some { s with dtor := .popping }
    | .popping =>
      match s.stack with
      | o :: r => some { s with stack := r, dtor := .final o }
      | [] => some { s with dtor := .drained }
    | .final o => some { s with dtor := .popping, finalized := s.finalized ++ [o], deleted := s.deleted ++ [o], obj := upd s.obj o .freed }
    -- the `unique_ptr`s in `data_buffer` (lock_free_stack.h 64) delete what is still in the stack
    | .drained => some { s with dtor := .stackGone, stack := [], deleted := s.deleted ++ s.stack,
                                obj := fun o => if o ∈ s.stack then .freed else s.obj o }
    | .stackGone => some { s with dtor := .selfGone }
    | .selfGone => none

/-- A sequence of steps. -/
def run : St → List Act → Option St
  | s, [] => some s
  | s, a :: rest =>
    match step s a with
    | none => none
    | some s' => run s' rest

/-- States reachable from a pool of `n` objects by steps that satisfy `P`. -/
inductive Reach (n : Nat) (P : St → Act → Prop) : St → Prop where
  | init : Reach n P (St.init n)
  | step {s s' : St} {a : Act} : Reach n P s → P s a → step s a = some s' → Reach n P s'

end Verif.PoolEnd
