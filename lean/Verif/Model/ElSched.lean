import Verif.Model.Scheduler
import Verif.Model.ElDispatch

/-!
`EventLoopScheduler` (high_performance/modules/high_performance/src/event_loop_scheduler.cpp) from `startScheduledTask` to the call of the task on the thread
of the event loop: the threads of the `BasicScheduler` it uses (Model/Scheduler.lean) publish the task (27-29) with the publisher of functions of an event loop
provider, whose ring, loop thread and listeners are those of Model/ElDispatch.lean.

Simplifications: a task is its number, and so is the function that is published.  The calls of start and stop of tasks do not overlap (the map of the scheduler is
not synchronised); they are made by a thread of the user or by a function or listener that the loop is running.  Odd thread numbers belong to
the scheduler, even ones to the user.
-/

namespace Verif.ElS
open Verif

/-- The thread of task `id` as a publisher. -/
def thr (id : Nat) : Nat := 2 * id + 1

structure St (D κ : Type) where
  /-- the basic scheduler; its `queue` records all calls of the publishing function, in order (nothing is taken out) -/
  sch : Sched.St κ
  el : ElD.St D Nat
  /-- the stop under way was called on the thread of the loop -/
  byLoop : Bool
  /-- the function or listener next in line has been called and has not returned -/
  inCall : Bool
  /-- history: tasks whose publication was refused, newest first -/
  lost : List Nat

def St.init {D κ : Type} (kind : ElD.Kind) : St D κ := ⟨Sched.St.init, ElD.St.init kind, false, false, []⟩

inductive Act (D κ : Type) where
  /-- `startScheduledTask`; `byLoop`: called by what the loop is running -/
  | start (byLoop : Bool) (name : κ) (isRepeat : Bool)
  | stop (byLoop : Bool) (name : κ)
  /-- `stopScheduledTask` returns -/
  | joined
  | test (id : Nat)
  | wake (id : Nat)
  | finish (id : Nat)
  /-- the loop calls the next function or listener -/
  | enter
  /-- which returns or throws -/
  | leave (ret : Bool)
  /-- anything else: the provider, its users, the steps of publishers and of the loop -/
  | el (a : ElD.Act D Nat)

variable {D κ : Type} [DecidableEq κ]

/-- What is left to the steps `el`: functions are published by the threads of the scheduler only. -/
def free : ElD.Act D Nat → Bool
  | .loop (.call p _ (.ev _)) => p % 2 == 0
  | .loop (.call _ _ (.fn _)) => false
  | .call _ => false
  | _ => true

/-- The task whose publication is refused in this step (event_loop_publisher.h 124-127). -/
def lostNow (l l' : EvLoop.St (ElD.Msg D Nat)) : ElD.Act D Nat → List Nat
  | .loop (.claim p) => match l.pc p, l'.pc p with
    | .claiming _ (.fn f), .idle => [f]
    | _, _ => []
  | _ => []

/-- Is the publishing thread back from `publish`? -/
def returned (l : EvLoop.St (ElD.Msg D Nat)) (p : Nat) : Bool :=
  match l.pc p with
  | .idle => true
  | _ => false

/-- Is the loop at a call that has not been made yet? -/
def atCall (d : Option (ElD.Deliv (ElD.Msg D Nat))) : Bool :=
  match d with
  | some ⟨some _, _ :: _⟩ => true
  | _ => false

def lift (s : St D κ) (r : Option (Sched.St κ)) : Option (St D κ) := r.map fun r => { s with sch := r }

/-- One step; `k`: the ring has `2^k` slots, `c`: the provider has a container. -/
def step (k : Nat) (c : Bool) (s : St D κ) (a : Act D κ) : Option (St D κ) :=
  if s.sch.terminated then none
  else match a with
  -- event_loop_scheduler.cpp 22-30; there is a scheduler object
  | .start b n r => if s.el.sched.isSome && (!b || s.inCall) then lift s (Sched.step true s.sch (.start n r)) else none
  -- 41-44
  | .stop b n => if s.el.sched.isSome && (!b || s.inCall) then (Sched.step true s.sch (.stop n)).map fun r => { s with sch := r, byLoop := b } else none
  | .joined => lift s (Sched.step true s.sch .joined)
  | .test id => lift s (Sched.step true s.sch (.test id))
  -- 27-28: the thread of the task calls `publish`
  | .wake id =>
    match s.el.sched with
    | none => none
    | some t =>
      match Sched.step true s.sch (.wake id), ElD.step k c s.el (.loop (.call (thr id) t (.fn id))) with
      | some r, some l => some { s with sch := r, el := l }
      | _, _ => none
  -- `publish` has returned
  | .finish id => if returned s.el.loop (thr id) then lift s (Sched.step true s.sch (.finish id)) else none
  | .enter => if atCall s.el.del && !s.inCall then some { s with inCall := true } else none
  -- the loop thread goes on only when a stop it has called has returned
  | .leave ret =>
    if s.inCall && (s.sch.ctl = .idle || !s.byLoop) then (ElD.step k c s.el (.call ret)).map fun l => { s with el := l, inCall := false } else none
  | .el a => if free a then (ElD.step k c s.el a).map fun l => { s with el := l, lost := lostNow s.el.loop l.loop a ++ s.lost } else none

def run (k : Nat) (c : Bool) (s : St D κ) : List (Act D κ) → Option (St D κ)
  | [] => some s
  | a :: as => match step k c s a with
    | none => none
    | some s' => run k c s' as

end Verif.ElS
