import Verif.Basic

/-!
Model of `kpsr::mem::SafeQueue` (MEM/include/klepsydra/mem_core/safe_queue.h) as a monitor.

All methods hold `m_mutex` from start to end except while waiting on a condition variable, so every
stretch between acquiring and releasing the mutex is one atomic step.  Threads waiting on
`m_non_empty_condition` / `m_non_full_condition` and threads already woken but not yet holding the mutex again
are kept in lists.  Waiting threads may wake without notification (spurious wake-up, allowed by the C++
standard) and, in `timeout_pop`, because the time is over.  `notify_one` wakes an arbitrary waiting thread.
`push(const&)`, `push(&&)` and `move_push` have the same body up to copying, likewise the `try_` and
`timeout_` pairs; each family is modelled once.
-/

namespace Verif.SQ

/-- Why a thread waiting on `m_non_empty_condition` woke up. -/
inductive Why where
  | notified
  | spurious
  | expired
  deriving DecidableEq, Repr

/-- A thread waiting for an item: `timed` for `timeout_pop`/`timeout_move_pop`. -/
structure Cons where
  t : Nat
  timed : Bool
  deriving DecidableEq, Repr

/-- The queue and its waiting threads. -/
structure St (α : Type) where
  /-- `m_queue`, oldest item first -/
  q : List α
  /-- `m_max_num_items` -/
  max : Nat
  /-- waiting on `m_non_empty_condition` -/
  wne : List Cons
  /-- woken from `m_non_empty_condition`, mutex not yet held -/
  kne : List (Cons × Why)
  /-- waiting on `m_non_full_condition`, with the item to push -/
  wnf : List (Nat × α)
  /-- woken from `m_non_full_condition`, mutex not yet held -/
  knf : List (Nat × α)
  deriving DecidableEq, Repr

/-- Constructor `SafeQueue(unsigned int)` (54-56). -/
def St.init {α : Type} (max : Nat) : St α := ⟨[], max, [], [], [], []⟩

/-- What happens, as seen by the callers. -/
inductive Ev (α : Type) where
  /-- blocking push of `x` by `t` has put `x` into the queue -/
  | pushed (t : Nat) (x : α)
  /-- `try_push` result -/
  | tryPushed (t : Nat) (x : α) (ok : Bool)
  /-- `force_move_push` result: number of items removed -/
  | forced (t : Nat) (x : α) (removed : Nat)
  /-- an item removed by `force_move_push` -/
  | discarded (x : α)
  /-- a member of the pop family returned item `x` to `t` -/
  | popped (t : Nat) (x : α)
  /-- `try_pop`, `timeout_pop` returned false -/
  | popFailed (t : Nat)
  deriving DecidableEq, Repr

/-- Methods. -/
inductive Op (α : Type) where
  | push (x : α)
  | tryPush (x : α)
  | forcePush (x : α)
  | pop
  | tryPop
  | timedPop (timeout : Nat)
  deriving DecidableEq, Repr

/-- Scheduler choices.  `pick` selects the thread `notify_one` wakes. -/
inductive Act (α : Type) where
  /-- thread `t` calls a method and runs it up to its end or to the wait -/
  | call (t : Nat) (op : Op α) (pick : Nat)
  /-- the `i`-th thread waiting for an item wakes without notification -/
  | spuriousNE (i : Nat)
  /-- the waiting time of the `i`-th thread waiting for an item is over -/
  | expireNE (i : Nat)
  /-- the `i`-th thread waiting for room wakes without notification -/
  | spuriousNF (i : Nat)
  /-- the `i`-th woken consumer gets the mutex; `late` : `wait_for` reports `cv_status::timeout` although the
  thread was woken for another reason (the standard allows it when the time is over by then) -/
  | resumeNE (i : Nat) (late : Bool) (pick : Nat)
  /-- the `i`-th woken producer gets the mutex -/
  | resumeNF (i : Nat) (pick : Nat)
  /-- `set_max_num_items(m)` -/
  | setMax (m : Nat)
  deriving DecidableEq, Repr

/-- Outcome of a step. -/
inductive Out (α : Type) where
  /-- the choice is not possible in this state -/
  | no
  /-- undefined behaviour: `front()`/`pop()` of an empty `std::queue` -/
  | ub
  | ok (s : St α) (ev : List (Ev α))

variable {α : Type}

/-- `m_non_empty_condition.notify_one()` -/
def notifyNE (s : St α) (pick : Nat) : St α :=
  match s.wne[pick % s.wne.length]? with
  | none => s
  | some c => { s with wne := s.wne.eraseIdx (pick % s.wne.length), kne := s.kne ++ [(c, .notified)] }

/-- `m_non_full_condition.notify_one()` -/
def notifyNF (s : St α) (pick : Nat) : St α :=
  match s.wnf[pick % s.wnf.length]? with
  | none => s
  | some c => { s with wnf := s.wnf.eraseIdx (pick % s.wnf.length), knf := s.knf ++ [c] }

/-- Body of `push`/`move_push` with the mutex held (89-97, 105-113, 123-131): test of the wait predicate
`m_queue.size() < m_max_num_items`, then push and notify, else wait. -/
def bodyPush (s : St α) (t : Nat) (x : α) (pick : Nat) : Out α :=
  if s.q.length < s.max then
    .ok (notifyNE { s with q := s.q ++ [x] } pick) [.pushed t x]
  else .ok { s with wnf := s.wnf ++ [(t, x)] } []

/-- `try_push`, `try_move_push` (138-185). -/
def bodyTryPush (s : St α) (t : Nat) (x : α) (pick : Nat) : Out α :=
  if s.max > 0 ∧ s.q.length ≥ s.max then .ok s [.tryPushed t x false]
  else .ok (notifyNE { s with q := s.q ++ [x] } pick) [.tryPushed t x true]

/-- The removal loop of `force_move_push` (196-200). -/
def dropOld (max : Nat) : List α → List α × List α
  | [] => ([], [])
  | y :: q =>
    if max > 0 ∧ (y :: q).length ≥ max then
      let r := dropOld max q
      (y :: r.1, r.2)
    else ([], y :: q)

/-- `force_move_push` (192-205). -/
def bodyForcePush (s : St α) (t : Nat) (x : α) (pick : Nat) : Out α :=
  let d := dropOld s.max s.q
  .ok (notifyNE { s with q := d.2 ++ [x] } pick) (d.1.map .discarded ++ [.forced t x d.1.length])

/-- `front()`, `pop()` and notify with the mutex held (217-219 and the same in all pops). -/
def takeFront (s : St α) (t : Nat) (pick : Nat) : Out α :=
  match s.q with
  | [] => .ub
  | x :: q => .ok (notifyNF { s with q := q } pick) [.popped t x]

/-- Body of `pop`/`move_pop` with the mutex held (211-237): the predicate is tested, else wait. -/
def bodyPop (s : St α) (t : Nat) (pick : Nat) : Out α :=
  if s.q = [] then .ok { s with wne := s.wne ++ [⟨t, false⟩] } []
  else takeFront s t pick

/-- `try_pop`, `try_move_pop` (244-274). -/
def bodyTryPop (s : St α) (t : Nat) (pick : Nat) : Out α :=
  if s.q = [] then .ok s [.popFailed t] else takeFront s t pick

/-- First part of `timeout_pop`, `timeout_move_pop` (284-294, 309-319). -/
def bodyTimedPop (s : St α) (t : Nat) (timeout : Nat) (pick : Nat) : Out α :=
  if s.q = [] then
    if timeout = 0 then .ok s [.popFailed t]
    else .ok { s with wne := s.wne ++ [⟨t, true⟩] } []
  else takeFront s t pick

/-- A woken consumer has the mutex again.  `pop` tests its predicate again (213-215).  `timeout_pop` only looks
at the status of `wait_for` (291-293) and goes on without looking at the queue (296-299). -/
def bodyResumeNE (s : St α) (c : Cons) (why : Why) (late : Bool) (pick : Nat) : Out α :=
  if c.timed then
    if why = .expired ∨ late then .ok s [.popFailed c.t] else takeFront s c.t pick
  else bodyPop s c.t pick

/-- Thread `t` is inside a call. -/
def busy (s : St α) (t : Nat) : Prop :=
  t ∈ s.wne.map Cons.t ∨ t ∈ s.kne.map (·.1.t) ∨ t ∈ s.wnf.map (·.1) ∨ t ∈ s.knf.map (·.1)

instance (s : St α) (t : Nat) : Decidable (busy s t) := by unfold busy; infer_instance

/-- One step. -/
def step (s : St α) : Act α → Out α
  | .call t op pick =>
    if busy s t then .no
    else match op with
      | .push x => bodyPush s t x pick
      | .tryPush x => bodyTryPush s t x pick
      | .forcePush x => bodyForcePush s t x pick
      | .pop => bodyPop s t pick
      | .tryPop => bodyTryPop s t pick
      | .timedPop to => bodyTimedPop s t to pick
  | .spuriousNE i =>
    match s.wne[i]? with
    | none => .no
    | some c => .ok { s with wne := s.wne.eraseIdx i, kne := s.kne ++ [(c, .spurious)] } []
  | .expireNE i =>
    match s.wne[i]? with
    | none => .no
    | some c =>
      if c.timed then .ok { s with wne := s.wne.eraseIdx i, kne := s.kne ++ [(c, .expired)] } []
      else .no
  | .spuriousNF i =>
    match s.wnf[i]? with
    | none => .no
    | some c => .ok { s with wnf := s.wnf.eraseIdx i, knf := s.knf ++ [c] } []
  | .resumeNE i late pick =>
    match s.kne[i]? with
    | none => .no
    | some (c, why) => bodyResumeNE { s with kne := s.kne.eraseIdx i } c why late pick
  | .resumeNF i pick =>
    match s.knf[i]? with
    | none => .no
    | some (t, x) => bodyPush { s with knf := s.knf.eraseIdx i } t x pick
  -- `set_max_num_items` (79): a plain store, no lock and no notification
  | .setMax m => .ok { s with max := m } []

/-- Executions: a schedule leads from a state to a state with a log of events.  A schedule with an
impossible choice or undefined behaviour has no such execution. -/
def run : St α → List (Act α) → Option (St α × List (Ev α))
  | s, [] => some (s, [])
  | s, a :: rest =>
    match step s a with
    | .ok s' ev =>
      match run s' rest with
      | none => none
      | some (s'', log) => some (s'', ev ++ log)
    | _ => none

/-- The schedule runs into undefined behaviour. -/
def HitsUB : St α → List (Act α) → Prop
  | _, [] => False
  | s, a :: rest =>
    match step s a with
    | .ub => True
    | .ok s' _ => HitsUB s' rest
    | .no => False

/-! ### Observers, copy, move, assignment -/

/-- `size()` (333-337) -/
def St.size (s : St α) : Nat := s.q.length
/-- `empty()` (343-347) -/
def St.empty (s : St α) : Bool := s.q.isEmpty
/-- `full()` (353-357) -/
def St.full (s : St α) : Bool := decide (s.max > 0 ∧ s.q.length ≥ s.max)

/-- Move constructor (62) and copy constructor (68-72): only `m_queue` is taken over; `m_max_num_items` keeps its
default member initialiser 0 (419). -/
def copyCtor (src : St α) : St α := { St.init 0 with q := src.q }

/-- Copy assignment (383-396) and move assignment (403-412): the queue content is replaced, waiting consumers are
notified if there are items; `m_max_num_items` is kept; waiting producers are not notified.  (The `sq.m_queue` of a move assignment is read without its mutex.) -/
def assignFrom (s : St α) (items : List α) : St α :=
  if items = [] then { s with q := [] }
  else { s with q := items, wne := [], kne := s.kne ++ s.wne.map (·, .notified) }

/-- `swap` (363-375) of two queues `a` and `b`, both mutexes held: contents exchanged, bounds kept, waiting consumers
of a queue that now has items notified. -/
def swapQ (a b : St α) : St α × St α := (assignFrom a b.q, assignFrom b a.q)

/-! ### Lock acquisition of `swap` and copy assignment

`a.swap(b)` locks `a.m_mutex` and then `b.m_mutex` (366-367); `a = b` locks in the same order (386-387). -/

/-- Progress of one two-lock call on queues `fst`, `snd`: which locks it holds. -/
inductive LockPc where
  | idle | one | both | done
  deriving DecidableEq, Repr

/-- Two threads; thread 0 calls `a.swap(b)` and thread 1 calls `b.swap(a)`.  `owner m` is the owner of mutex `m`
(`false` = that of `a`, `true` = that of `b`). -/
structure Locks where
  pc : Bool → LockPc
  owner : Bool → Option Bool

/-- Mutex that thread `t` (thread `false` works on `a`, `b`; thread `true` on `b`, `a`) locks first / second. -/
def firstLock (t : Bool) : Bool := t
def secondLock (t : Bool) : Bool := !t

/-- One step of thread `t` (363-375, 383-396): lock the first mutex, lock the second, unlock both. -/
def lockStep (s : Locks) (t : Bool) : Option Locks :=
  match s.pc t with
  | .idle =>
    if s.owner (firstLock t) = none then
      some ⟨fun u => if u = t then .one else s.pc u, fun m => if m = firstLock t then some t else s.owner m⟩
    else none
  | .one =>
    if s.owner (secondLock t) = none then
      some ⟨fun u => if u = t then .both else s.pc u, fun m => if m = secondLock t then some t else s.owner m⟩
    else none
  | .both =>
    some ⟨fun u => if u = t then .done else s.pc u, fun m => if s.owner m = some t then none else s.owner m⟩
  | .done => none

def Locks.init : Locks := ⟨fun _ => .idle, fun _ => none⟩

end Verif.SQ
