import Verif.Basic
import Mathlib.Order.Defs.LinearOrder

/-!
Model of `kpsr::SafeEventEmitter` (CORE/safe_event_emitter.h).

`listeners` is a `std::multimap<std::string, ListenerBase>`: a list sorted by key, insertion behind the
entries with the same key.  Callbacks are abstract labels; calling one is an entry in a log.  Statistics are the
counters a user can read: number of completed calls and of discarded events.  Attaching the statistics to a container
is left out (C42).  Locking: every method body except `removeAllListeners`, `getListenerStats` (177-188) and the calls of the
handlers runs under `mutex` and is one atomic step.  These two take no lock and are modelled as one atomic step all the same; and `emitEvent` and
`discardEvent` read the number of listeners before they lock (120, 149), only to size a vector that is resized under the lock, which is left out
here.  That these accesses are data races is a finding of C85 (Model/Locks.lean).
-/

namespace Verif.SafeEE

/-- `ListenerBase` (202-227). -/
structure Lis (β : Type) where
  id : Nat
  isOnce : Bool
  cb : β
  /-- `listenerStats->totalDiscardedEvents`, `none` when the listener has no statistics (once, 269-273) -/
  disc : Option Nat
  deriving DecidableEq, Repr

/-- Emitter state. -/
structure St (κ β : Type) where
  /-- `last_listener` (277), `unsigned int` -/
  last : Nat
  /-- `listeners` (278) -/
  listeners : List (κ × Lis β)
  deriving DecidableEq, Repr

def St.init {κ β : Type} : St κ β := ⟨0, []⟩

variable {κ β ε : Type} [LinearOrder κ]

/-- `std::multimap::insert`: behind the last entry whose key is not greater. -/
def mmInsert (k : κ) (v : β) : List (κ × β) → List (κ × β)
  | [] => [(k, v)]
  | (k', v') :: l => if k < k' then (k, v) :: (k', v') :: l else (k', v') :: mmInsert k v l

/-- `std::multimap::equal_range` -/
def equalRange (l : List (κ × β)) (k : κ) : List (κ × β) :=
  (l.dropWhile (fun p => decide (p.1 < k))).takeWhile (fun p => decide (¬ k < p.1))

/-- `addListener` (245-275), called by `on` (60-70, `isOnce = false`) and `once` (78-82, `isOnce = true`). -/
def addListener (s : St κ β) (name : κ) (isOnce : Bool) (cb : β) : St κ β × Nat :=
  let id := (s.last + 1) % 2 ^ 32
  (⟨id, mmInsert name ⟨id, isOnce, cb, if isOnce then none else some 0⟩ s.listeners⟩, id)

def on (s : St κ β) (name : κ) (cb : β) : St κ β × Nat := addListener s name false cb
def once (s : St κ β) (name : κ) (cb : β) : St κ β × Nat := addListener s name true cb

/-- Erase the first entry that satisfies `p` (`find_if` then `erase`). -/
def eraseFirst {γ : Type} (p : γ → Bool) : List γ → List γ
  | [] => []
  | x :: l => if p x then l else x :: eraseFirst p l

/-- `removeListener` (88-107); `none` = `std::invalid_argument`. -/
def removeListener (s : St κ β) (id : Nat) : Option (St κ β) :=
  if s.listeners.any (fun p => p.2.id == id) then
    some { s with listeners := eraseFirst (fun p => p.2.id == id) s.listeners }
  else none

/-- `removeAllListeners` (190-199) -/
def removeAll (s : St κ β) : St κ β := { s with listeners := [] }

/-- Snapshot of the handlers of a name (120-133). -/
def handlers (s : St κ β) (name : κ) : List (Lis β) := (equalRange s.listeners name).map (·.2)

/-- The handler loop of `emitEvent` (135-140) when callbacks do not touch the emitter and no other thread runs.
Returns the calls made and whether the loop ended with the exception of `removeListener`. -/
def emitLoop (s : St κ β) (e : ε) : List (Lis β) → St κ β × List (Nat × β × ε) × Bool
  | [] => (s, [], false)
  | h :: hs =>
    if h.isOnce then
      match removeListener s h.id with
      | none => (s, [(h.id, h.cb, e)], true)
      | some s' =>
        let r := emitLoop s' e hs
        (r.1, (h.id, h.cb, e) :: r.2.1, r.2.2)
    else
      let r := emitLoop s e hs
      (r.1, (h.id, h.cb, e) :: r.2.1, r.2.2)

/-- `emitEvent` (115-141), run without interruption. -/
def emit (s : St κ β) (name : κ) (e : ε) : St κ β × List (Nat × β × ε) × Bool :=
  emitLoop s e (handlers s name)

/-- `discardEvent` (147-170): one more discarded event for each listener of that name that has statistics. -/
def discard (s : St κ β) (name : κ) : St κ β :=
  { s with listeners := s.listeners.map fun p =>
      if p.1 = name then (p.1, { p.2 with disc := p.2.disc.map (· + 1) }) else p }

/-- `getListenerStats` (177-188), the discarded counter of it. -/
def statsOf (s : St κ β) (id : Nat) : Option Nat :=
  match s.listeners.find? (fun p => p.2.id == id) with
  | none => none
  | some p => p.2.disc

/-! ### Operations and histories (one thread) -/

inductive Op (κ β ε : Type) where
  | on (name : κ) (cb : β)
  | once (name : κ) (cb : β)
  | remove (id : Nat)
  | removeAll
  | emit (name : κ) (e : ε)
  | discard (name : κ)
  deriving Repr

/-- What the caller sees. -/
inductive Res (β ε : Type) where
  /-- returned listener id -/
  | id (n : Nat)
  | done
  /-- `std::invalid_argument` -/
  | invalid
  /-- the calls made by an emission, and whether it ended with an exception -/
  | calls (l : List (Nat × β × ε)) (thrown : Bool)
  deriving DecidableEq, Repr

def apply (s : St κ β) : Op κ β ε → St κ β × Res β ε
  | .on n cb => let r := on s n cb; (r.1, .id r.2)
  | .once n cb => let r := once s n cb; (r.1, .id r.2)
  | .remove id => match removeListener s id with
    | none => (s, .invalid)
    | some s' => (s', .done)
  | .removeAll => (removeAll s, .done)
  | .emit n e => let r := emit s n e; (r.1, .calls r.2.1 r.2.2)
  | .discard n => (discard s n, .done)

/-- State and results after a history. -/
def runOps (s : St κ β) : List (Op κ β ε) → St κ β × List (Res β ε)
  | [] => (s, [])
  | o :: os => let r := apply s o; let q := runOps r.1 os; (q.1, r.2 :: q.2)

/-! ### Interleaved executions

`emitEvent` releases the mutex before it calls the handlers, so other threads, and the callbacks themselves, may use the
emitter in between.  An emission under way is a list of handlers still to be called. -/

/-- An emission under way: event, handlers not yet called, and the id that has to be removed next because its
once-listener just returned. -/
structure Emission (β ε : Type) where
  ev : ε
  rest : List (Lis β)
  toRemove : Option Nat
  deriving DecidableEq, Repr

structure CSt (κ β ε : Type) where
  em : St κ β
  /-- emissions under way, by number -/
  run : Nat → Option (Emission β ε)

inductive CAct (κ β ε : Type) where
  /-- any non-emitting method call by anyone -/
  | op (o : Op κ β ε)
  /-- emission number `k` takes its snapshot (120-133) -/
  | start (k : Nat) (name : κ) (e : ε)
  /-- emission `k` calls its next handler (136) -/
  | call (k : Nat)
  /-- emission `k` removes the once-listener that just returned (137-139) -/
  | finish (k : Nat)
  /-- emission `k` returns (141) -/
  | ret (k : Nat)
  deriving Repr

inductive CEv (β ε : Type) where
  | called (k : Nat) (id : Nat) (cb : β) (e : ε)
  /-- emission `k` ended with `std::invalid_argument` -/
  | threw (k : Nat)
  | returned (k : Nat)
  deriving DecidableEq, Repr

/-- One step; `none`: not possible. -/
def cstep (s : CSt κ β ε) : CAct κ β ε → Option (CSt κ β ε × List (CEv β ε))
  | .op (.emit _ _) => none
  | .op o => some ({ s with em := (apply s.em o).1 }, [])
  | .start k name e =>
    match s.run k with
    | some _ => none
    | none => some ({ s with run := upd s.run k (some ⟨e, handlers s.em name, none⟩) }, [])
  | .call k =>
    match s.run k with
    | some ⟨e, h :: rest, none⟩ =>
      some ({ s with run := upd s.run k (some ⟨e, rest, if h.isOnce then some h.id else none⟩) },
        [.called k h.id h.cb e])
    | _ => none
  | .finish k =>
    match s.run k with
    | some ⟨e, rest, some id⟩ =>
      match removeListener s.em id with
      | some em => some ({ em := em, run := upd s.run k (some ⟨e, rest, none⟩) }, [])
      | none => some ({ s with run := upd s.run k none }, [.threw k])
    | _ => none
  | .ret k =>
    match s.run k with
    | some ⟨_, [], none⟩ => some ({ s with run := upd s.run k none }, [.returned k])
    | _ => none

def crun (s : CSt κ β ε) : List (CAct κ β ε) → Option (CSt κ β ε × List (CEv β ε))
  | [] => some (s, [])
  | a :: as =>
    match cstep s a with
    | none => none
    | some (s', ev) =>
      match crun s' as with
      | none => none
      | some (s'', log) => some (s'', ev ++ log)

def CSt.init : CSt κ β ε := ⟨St.init, fun _ => none⟩

end Verif.SafeEE
