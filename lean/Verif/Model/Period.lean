import Verif.Model.Sequencer

/-!
Model of the timing of `kpsr::mem::BasicScheduler::ScheduledThread::start` (/repo/core/modules/mem_mdlw/src/basic_scheduler.cpp 29-62): the
thread of one task, with the real time in microseconds, the readings of the system clock and the moment at which `stop()` clears
`_isRunning` (64-70).  Starting and stopping of several tasks, and the threads that do it, are in Model/Scheduler.
-/

namespace Verif.Period
open Verif

/-- What the thread meets. -/
structure Env where
  /-- reading of `std::chrono::system_clock` in microseconds at a real time (45-47, 49-51); it can be set by the user or by NTP -/
  clk : Nat → Int
  /-- real time at which `stop()` clears `_isRunning` (66), if it is called -/
  stop : Option Nat

/-- Value of `_isRunning` at a real time. -/
def Env.running (e : Env) (t : Nat) : Bool :=
  match e.stop with
  | none => true
  | some T => decide (t < T)

/-- How long the parts of one round of the loop take. -/
structure Round where
  /-- from the end of the time asked for in `sleep_for` to the reading of the clock -/
  over : Nat
  /-- from the reading of the clock to the call of the task -/
  call : Nat
  /-- the task -/
  dur : Nat
  /-- from its return to the second reading of the clock -/
  ret : Nat
  /-- from there to the next test of `_isRunning` -/
  test : Nat

/-- One call of the task. -/
structure Call where
  /-- real time of the first reading of the clock -/
  due : Nat
  /-- real time at which the task is called -/
  beg : Nat
  /-- real time at which the task returns -/
  fin : Nat
  deriving DecidableEq, Repr

structure St where
  /-- real time, just before a test of `_isRunning` -/
  now : Nat
  /-- the local variables `before` and `after` (34-35) -/
  before : Int
  after : Int
  /-- the calls so far, oldest first -/
  calls : List Call
  /-- the thread has ended -/
  ended : Bool

/-- 34-35: the thread starts at real time `t0`. -/
def St.init (t0 : Nat) : St := ⟨t0, 0, 0, [], false⟩

/-- 37: `int effectiveSleepTime = _after - (after - before)`, computed in 64 bits and narrowed to `int`. -/
def sleepTime (p before after : Int) : Int := Disr.toInt32 (p - (after - before))

/-- One round of the loop (36-52) of a repeated task with `_after = p`; 38: no sleep unless the time is positive. -/
def round (e : Env) (p : Int) (s : St) (r : Round) : St :=
  if s.ended then s
  else if e.running s.now then
    let due := s.now + (sleepTime p s.before s.after).toNat + r.over
    let beg := due + r.call
    let fin := beg + r.dur
    let read := fin + r.ret
    { now := read + r.test, before := e.clk due, after := e.clk read, calls := s.calls ++ [⟨due, beg, fin⟩], ended := false }
  else { s with ended := true }

/-- Several rounds. -/
def run (e : Env) (p : Int) : St → List Round → St
  | s, [] => s
  | s, r :: rs => run e p (round e p s r) rs

/-- A task that is not repeated (54-57), started at real time `t0`. -/
def oneShot (e : Env) (p : Int) (t0 : Nat) (r : Round) : List Call :=
  if e.running t0 then
    let due := t0 + p.toNat + r.over
    [⟨due, due + r.call, due + r.call + r.dur⟩]
  else []

end Verif.Period
