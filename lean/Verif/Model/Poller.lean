import Verif.Basic

/-!
Model of `kpsr::mem::InMemoryQueuePoller` (MEM/include/klepsydra/mem_core/in_memory_queue_poller.h, MEM/src/in_memory_queue_poller.cpp):
one controlling thread that calls `start`, `stop` and the destructor, and the polling thread.  `ZMQPoller::start`/`stop`
(ZMQ/zmq_poller.h 66-107) have the same code.

`takeEventFromQueue` is a call that may return at any time (with both queues it waits at most the sleep period), or leave with an exception
of a listener: the loop runs in a `std::packaged_task` (in_memory_queue_poller.h 105, in_memory_queue_poller.cpp 26, 46), which keeps the
exception in a future nobody asks, and the thread ends while `_running` stays set.
-/

namespace Verif.Poller

/-- The polling thread. -/
inductive Th where
  /-- no thread (`_threadNotifier` not joinable) -/
  | absent
  /-- created by `start`, `pollingLoop` not yet begun -/
  | spawned
  /-- about to test `isRunning()` -/
  | loop
  /-- inside `takeEventFromQueue` -/
  | inCall
  | done
  deriving DecidableEq, Repr

/-- The controlling thread. -/
inductive Ctl where
  | idle
  /-- in `start`, waiting for the thread to run -/
  | waiting
  /-- in `stop`, joining -/
  | joining
  /-- destructor of the derived class done, destructor of the base class not begun -/
  | destroying
  /-- in the destructor of the base class, joining -/
  | joiningD
  | dead
  deriving DecidableEq, Repr

structure St where
  started : Bool
  running : Bool
  th : Th
  ctl : Ctl
  /-- the derived object, which implements `takeEventFromQueue`, exists -/
  derived : Bool
  /-- ghost: calls of `takeEventFromQueue` begun -/
  calls : Nat
  /-- ghost: `takeEventFromQueue` was called on the base class alone (pure virtual call) or on destroyed members -/
  bad : Bool
  /-- ghost: `start` has thrown -/
  threw : Bool
  deriving DecidableEq, Repr

def St.init : St := ⟨false, false, .absent, .idle, true, 0, false, false⟩

inductive Act where
  | callStart
  | seeRunning
  | timeout
  | callStop
  | joined
  | destroyDerived
  | destroyBase
  | joinedD
  | begin
  | test
  | ret
  | throwing
  deriving DecidableEq, Repr

/-- Steps of the polling thread. -/
def Act.isThread : Act → Bool
  | .begin | .test | .ret | .throwing => true
  | _ => false

def step (s : St) : Act → Option St
  -- `start`, in_memory_queue_poller.cpp 20-26
  | .callStart =>
    if s.ctl = .idle then
      if s.started then some s
      else some { s with started := true, th := .spawned, ctl := .waiting }
    else none
  -- 28: the loop ends when `isRunning()`
  | .seeRunning => if s.ctl = .waiting ∧ s.running = true then some { s with ctl := .idle } else none
  -- 29-31: `std::runtime_error` after the time-out; `_started` stays set
  | .timeout => if s.ctl = .waiting ∧ s.running = false then some { s with ctl := .idle, threw := true } else none
  -- `stop`, 37-42
  | .callStop =>
    if s.ctl = .idle then
      if s.started then some { s with running := false, ctl := .joining }
      else some s
    else none
  -- 43-48
  | .joined =>
    if s.ctl = .joining ∧ (s.th = .done ∨ s.th = .absent) then some { s with th := .absent, started := false, ctl := .idle }
    else none
  -- the destructors of `SafeQueuePoller` and `ConcurrentQueuePoller` are implicit: members are destroyed, the thread goes on
  | .destroyDerived => if s.ctl = .idle then some { s with derived := false, ctl := .destroying } else none
  -- `~InMemoryQueuePoller`, 51-57
  | .destroyBase => if s.ctl = .destroying then some { s with running := false, ctl := .joiningD } else none
  | .joinedD =>
    if s.ctl = .joiningD ∧ (s.th = .done ∨ s.th = .absent) then some { s with th := .absent, ctl := .dead } else none
  -- `pollingLoop`, 61
  | .begin => if s.th = .spawned then some { s with running := true, th := .loop } else none
  -- 62-63
  | .test =>
    if s.th = .loop then
      if s.running then some { s with th := .inCall, calls := s.calls + 1, bad := s.bad || !s.derived }
      else some { s with th := .done }
    else none
  | .ret => if s.th = .inCall then some { s with th := .loop } else none
  -- the exception of a listener leaves `pollingLoop`; nothing resets `_running`
  | .throwing => if s.th = .inCall then some { s with th := .done } else none

inductive Reach : St → Prop where
  | init : Reach St.init
  | step {s s'} (a : Act) (h : Reach s) (hs : step s a = some s') : Reach s'

def run (s : St) : List Act → Option St
  | [] => some s
  | a :: as => match step s a with
    | none => none
    | some s' => run s' as

end Verif.Poller
