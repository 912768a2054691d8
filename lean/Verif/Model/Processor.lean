import Verif.Basic

/-!
Batch event processors, their sequence barriers and the wait strategy they share with the publishers
(D4 = high_performance/modules/high_performance/include/klepsydra/high_performance/disruptor4cpp;
D4/batch_event_processor.h, sequence_barrier.h, wait_strategies/*.h), as a transition system over any number of processor
objects and any number of threads.  A thread runs `run()` of some object, `halt()` of some object, or a publication.  One step is
one access to a shared atomic, one mutex operation or one handler call.  Memory is sequentially consistent; the mutex is not
fair; a thread that waits on the condition variable may also wake up spuriously.

Simplifications: the publication is reduced to the store to the cursor followed by `signal_all_when_blocking`
(single_producer_sequencer.h 192-198, multi_producer_sequencer.h 201-205), in between any other thread may run, so this also covers the multi
producer sequencer, where the cursor moves at the claim and the signal follows at the publication; the cursor never decreases
(C21, C22), hence the maximum; the value of `dependent_sequence_.get()` and the highest
published sequence are arbitrary; logging is left out; a `no_op_event_processor` (no_op_event_processor.h 88-124) is a processor whose handler does nothing, with its
own `halt`; `recursive_mutex` is never locked recursively by these functions, so it is
a plain owner.  The first phase of `phased_backoff_wait_strategy` lasts an arbitrary but finite number of looks: the clock is assumed
to move on.
-/

namespace Verif.Proc

/-- Wait strategies: `blocking` (blocking_wait_strategy.h 64-88), `lite` (lite_blocking_wait_strategy.h 66-98), `timed`
(timeout_blocking_wait_strategy.h 67-95) and `spin`, the common shape of busy_spin 62-74, yielding 63-95 and sleeping 65-99: read the
dependent sequence and check the alert until it is large enough.  `phased fb` is phased_backoff_wait_strategy.h 64-102: look at the
dependent sequence for some time, without checking the alert, then wait with the strategy `fb`. -/
inductive Strat where
  | blocking | lite | timed | spin
  | phased (fb : Strat)
  deriving DecidableEq, Repr

/-- The strategy that waits in the end, whose `signal_all_when_blocking` is used (phased_backoff_wait_strategy.h 88-91 and 100). -/
def Strat.base : Strat → Strat
  | .phased fb => fb.base
  | w => w

/-- There is a first phase. -/
def Strat.hasPhase : Strat → Bool
  | .phased _ => true
  | _ => false

/-- Program counter of a thread. -/
inductive Pc where
  | idle
  /-- `run()` of object `o`, batch_event_processor.h 106: the compare-and-swap -/
  | rCas (o : Nat)
  /-- 109: `clear_alert` -/
  | rClear (o : Nat)
  /-- 110-113: `notify_start`, read of `sequence_` -/
  | rStart (o : Nat)
  /-- sequence_barrier.h 84: `check_alert` of `wait_for(nx)` -/
  | rTop (o : Nat) (nx : Int)
  /-- first read of the cursor in the wait strategy -/
  | rCur (o : Nat) (nx : Int)
  /-- about to lock the mutex -/
  | rLock (o : Nat) (nx : Int)
  /-- lite: `signal_needed_.store(true)`; mutex held -/
  | rSig (o : Nat) (nx : Int)
  /-- read of the cursor, mutex held -/
  | rCur2 (o : Nat) (nx : Int)
  /-- `check_alert`, mutex held -/
  | rAlert (o : Nat) (nx : Int)
  /-- about to wait on the condition variable, mutex held -/
  | rEnter (o : Nat) (nx : Int)
  /-- waiting on the condition variable -/
  | rAsleep (o : Nat) (nx : Int)
  /-- woken, about to take the mutex again -/
  | rWake (o : Nat) (nx : Int)
  /-- lite: the read of the cursor in `while (...)` after the wait, mutex held -/
  | rCur3 (o : Nat) (nx : Int)
  /-- timed: woken by the time-out, about to take the mutex again -/
  | rTWake (o : Nat) (nx : Int)
  /-- timed: `throw timeout_exception`, the mutex is released on the way out -/
  | rTOut (o : Nat) (nx : Int)
  /-- 128-133: `notify_timeout` -/
  | rTNotify (o : Nat) (nx : Int)
  /-- the mutex is released after the loop -/
  | rUnlock (o : Nat) (nx : Int)
  /-- `alert_exception` thrown with the mutex held -/
  | rUnwind (o : Nat) (nx : Int)
  /-- read of the dependent sequence -/
  | rDep (o : Nat) (nx : Int)
  /-- `check_alert` in that loop -/
  | rDepAlert (o : Nat) (nx : Int)
  /-- 119: head of the loop over the batch -/
  | rBatch (o : Nat) (nx av : Int)
  /-- 121-123: inside `on_event` -/
  | rHandle (o : Nat) (nx av : Int)
  /-- 134-135: `alert_exception` caught, reading `running_` -/
  | rCaught (o : Nat) (nx : Int)
  /-- 150-151 and 156-157: `notify_shutdown`, `running_ = false`, leave -/
  | rDown (o : Nat)
  /-- publication: store to the cursor -/
  | pStore (x : Int)
  /-- `halt()` 97: `running_ = false` -/
  | hRun (o : Nat)
  /-- `halt()` 98, sequence_barrier.h 101: `alerted_ = true` -/
  | hAlert (o : Nat)
  /-- `signal_all_when_blocking`, called by `halt` of `src` or (none) by a publication: lite reads and resets `signal_needed_` -/
  | sExch (src : Option Nat)
  /-- locking the mutex -/
  | sLock (src : Option Nat)
  /-- `notify_all`, mutex held -/
  | sNotify (src : Option Nat)
  /-- releasing the mutex -/
  | sUnlock (src : Option Nat)
  /-- phased: the first phase, `n` more looks at the dependent sequence (phased_backoff_wait_strategy.h 76-101) -/
  | rPhase (o : Nat) (nx : Int) (n : Nat)
  deriving DecidableEq, Repr

structure St where
  /-- `cursor_` of the sequencer -/
  cursor : Int
  /-- `mutex_` of the wait strategy -/
  owner : Option Nat
  /-- `signal_needed_` (lite) -/
  signal : Bool
  /-- `running_` of each processor -/
  running : Nat → Bool
  /-- `alerted_` of its barrier -/
  alerted : Nat → Bool
  /-- its `sequence_` -/
  seq : Nat → Int
  pc : Nat → Pc
  /-- history: the sequences passed to `on_event` of each processor, newest first -/
  log : Nat → List Int
  /-- history: `halt` of the object has completed its signalling while the alert was set, and the alert was not cleared since -/
  told : Nat → Bool

/-- A new ring with all processors created (batch_event_processor.h 63-92, sequence_barrier.h 67-80). -/
def St.init : St where
  cursor := -1
  owner := none
  signal := false
  running := fun _ => false
  alerted := fun _ => false
  seq := fun _ => -1
  pc := fun _ => .idle
  log := fun _ => []
  told := fun _ => false

inductive Act where
  /-- thread `t` calls `run()` of `o` -/
  | callRun (t o : Nat)
  /-- thread `t` calls `halt()` of `o` -/
  | callHalt (t o : Nat)
  /-- thread `t` publishes up to `x` -/
  | callPublish (t : Nat) (x : Int)
  /-- thread `t` does its next step; `v` is the value read from the dependent sequence or the highest
  published sequence, or the length of a first phase -/
  | step (t : Nat) (v : Int)
  /-- `on_event` throws a `std::exception` (138-144) -/
  | throwStd (t : Nat)
  /-- `on_event` throws something else (148-153) -/
  | throwOther (t : Nat)
  /-- spurious wake-up -/
  | spurious (t : Nat)
  /-- the time-out of the timed strategy expires -/
  | timeout (t : Nat)
  /-- thread `t` calls `halt()` of a `no_op_event_processor` `o` (no_op_event_processor.h 85): the store and nothing else -/
  | haltNoop (t o : Nat)

/-- The thread an action belongs to. -/
def Act.thread : Act → Nat
  | .callRun t _ | .callHalt t _ | .callPublish t _ | .step t _ | .throwStd t | .throwOther t | .spurious t | .timeout t | .haltNoop t _ => t

def St.goto (s : St) (t : Nat) (p : Pc) : St := { s with pc := upd s.pc t p }

/-- `notify_all`: every waiting thread is woken. -/
def wakeAll (f : Nat → Pc) : Nat → Pc := fun t =>
  match f t with
  | .rAsleep o nx => .rWake o nx
  | p => p

/-- What the wait strategy does first after `check_alert` of the barrier; a first phase takes `n` looks. -/
def firstPc (w : Strat) (o : Nat) (nx : Int) (n : Nat) : Pc :=
  if w.hasPhase = true then .rPhase o nx n else if w.base = .spin then .rDep o nx else .rCur o nx

/-- ... and after locking the mutex: lite sets `signal_needed_` first. -/
def lockedPc (w : Strat) (o : Nat) (nx : Int) : Pc := if w.base = .lite then .rSig o nx else .rCur2 o nx

/-- ... and after waking up with the mutex: lite is at the end of a do-while loop. -/
def wokenPc (w : Strat) (o : Nat) (nx : Int) : Pc := if w.base = .lite then .rCur3 o nx else .rCur2 o nx

/-- `halt` of `src` has done its signalling (history). -/
def St.tell (s : St) (src : Option Nat) : St :=
  match src with
  | some o => { s with told := upd s.told o (s.alerted o) }
  | none => s

/-- The next step of thread `t`. -/
def stepT (w : Strat) (s : St) (t : Nat) (v : Int) : Option St :=
  match s.pc t with
  | .idle => none
  | .rCas o =>
    -- 105-107: throws if already running
    if s.running o then some (s.goto t .idle)
    else some ({ s with running := upd s.running o true }.goto t (.rClear o))
  | .rClear o => some ({ s with alerted := upd s.alerted o false, told := upd s.told o false }.goto t (.rStart o))
  | .rStart o => some (s.goto t (.rTop o (s.seq o + 1)))
  | .rTop o nx => if s.alerted o then some (s.goto t (.rCaught o nx)) else some (s.goto t (firstPc w o nx v.toNat))
  | .rCur o nx => if s.cursor < nx then some (s.goto t (.rLock o nx)) else some (s.goto t (.rDep o nx))
  | .rLock o nx =>
    if s.owner = none then some ({ s with owner := some t }.goto t (lockedPc w o nx)) else none
  | .rSig o nx => some ({ s with signal := true }.goto t (.rCur2 o nx))
  | .rCur2 o nx => if s.cursor < nx then some (s.goto t (.rAlert o nx)) else some (s.goto t (.rUnlock o nx))
  | .rAlert o nx => if s.alerted o then some (s.goto t (.rUnwind o nx)) else some (s.goto t (.rEnter o nx))
  | .rEnter o nx => some ({ s with owner := none }.goto t (.rAsleep o nx))
  | .rAsleep _ _ => none
  | .rWake o nx =>
    if s.owner = none then some ({ s with owner := some t }.goto t (wokenPc w o nx)) else none
  | .rCur3 o nx => if s.cursor < nx then some (s.goto t (.rSig o nx)) else some (s.goto t (.rUnlock o nx))
  | .rTWake o nx => if s.owner = none then some ({ s with owner := some t }.goto t (.rTOut o nx)) else none
  | .rTOut o nx => some ({ s with owner := none }.goto t (.rTNotify o nx))
  | .rTNotify o nx => some (s.goto t (.rTop o nx))
  | .rUnlock o nx => some ({ s with owner := none }.goto t (.rDep o nx))
  | .rUnwind o nx => some ({ s with owner := none }.goto t (.rCaught o nx))
  | .rDep o nx => if v < nx then some (s.goto t (.rDepAlert o nx)) else some (s.goto t (.rBatch o nx v))
  | .rDepAlert o nx => if s.alerted o then some (s.goto t (.rCaught o nx)) else some (s.goto t (.rDep o nx))
  | .rBatch o nx av =>
    if nx ≤ av then some ({ s with log := upd s.log o (nx :: s.log o) }.goto t (.rHandle o nx av))
    else some ({ s with seq := upd s.seq o av }.goto t (.rTop o nx))
  | .rHandle o nx av => some (s.goto t (.rBatch o (nx + 1) av))
  | .rCaught o nx => if s.running o then some (s.goto t (.rTop o nx)) else some (s.goto t (.rDown o))
  | .rDown o => some ({ s with running := upd s.running o false }.goto t .idle)
  | .pStore x => some ({ s with cursor := max s.cursor x }.goto t (.sExch none))
  | .hRun o => some ({ s with running := upd s.running o false }.goto t (.hAlert o))
  | .hAlert o => some ({ s with alerted := upd s.alerted o true }.goto t (.sExch (some o)))
  | .sExch src =>
    match w.base with
    | .spin => some ((s.tell src).goto t .idle)
    | .lite => if s.signal then some ({ s with signal := false }.goto t (.sLock src)) else some ((s.tell src).goto t .idle)
    | _ => some (s.goto t (.sLock src))
  | .sLock src => if s.owner = none then some ({ s with owner := some t }.goto t (.sNotify src)) else none
  | .sNotify src =>
    some (({ s with pc := wakeAll s.pc }.tell src).goto t (.sUnlock src))
  | .sUnlock _ => some ({ s with owner := none }.goto t .idle)
  | .rPhase o nx n =>
    if v < nx then
      match n with
      | 0 => if w.base = .spin then some (s.goto t (.rDep o nx)) else some (s.goto t (.rCur o nx))
      | n + 1 => some (s.goto t (.rPhase o nx n))
    else some (s.goto t (.rBatch o nx v))

def step (w : Strat) (s : St) : Act → Option St
  | .callRun t o => if s.pc t = .idle then some (s.goto t (.rCas o)) else none
  | .callHalt t o => if s.pc t = .idle then some (s.goto t (.hRun o)) else none
  | .callPublish t x => if s.pc t = .idle then some (s.goto t (.pStore x)) else none
  | .step t v => stepT w s t v
  | .throwStd t =>
    match s.pc t with
    -- 142-144: on_event_exception, `sequence_.set(next_sequence)`, `next_sequence++`
    | .rHandle o nx _ => some ({ s with seq := upd s.seq o nx }.goto t (.rTop o (nx + 1)))
    | _ => none
  | .throwOther t =>
    match s.pc t with
    | .rHandle o _ _ => some (s.goto t (.rDown o))
    | _ => none
  | .spurious t =>
    match s.pc t with
    | .rAsleep o nx => some (s.goto t (.rWake o nx))
    | _ => none
  | .timeout t =>
    match s.pc t with
    | .rAsleep o nx => if w.base = .timed then some (s.goto t (.rTWake o nx)) else none
    | _ => none
  | .haltNoop t o => if s.pc t = .idle then some { s with running := upd s.running o false } else none

def run (w : Strat) (s : St) : List Act → Option St
  | [] => some s
  | a :: as => match step w s a with
    | none => none
    | some s' => run w s' as

/-- States reachable from a new ring. -/
inductive Reach (w : Strat) : St → Prop
  | init : Reach w .init
  | step {s s' : St} (a : Act) : Reach w s → step w s a = some s' → Reach w s'

end Verif.Proc
