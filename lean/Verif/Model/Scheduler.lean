import Verif.Basic

/-!
Model of `kpsr::mem::BasicScheduler` (MEM/src/basic_scheduler.cpp) and of `kpsr::high_performance::EventLoopScheduler`
(/repo/high_performance/modules/high_performance/src/event_loop_scheduler.cpp), which gives the basic scheduler tasks that publish
the real task to an event loop (`viaLoop`).  One controlling thread starts and stops tasks; every task has its thread.
Sleeping may take any time.  The function of a task returns, throws, or tries to stop the task it belongs to.
-/

namespace Verif.Sched
open Verif

/-- Thread of a task. -/
inductive Pc where
  /-- before `while (_isRunning)` / `if (_isRunning)` -/
  | test
  | sleeping
  /-- in `_task()` -/
  | inTask
  | done
  deriving DecidableEq, Repr

structure Task where
  isRepeat : Bool
  /-- `_isRunning` -/
  isRunning : Bool
  pc : Pc
  deriving DecidableEq, Repr

inductive Ctl (κ : Type) where
  | idle
  /-- in `stopScheduledTask(name)`, joining the thread of task `id` -/
  | joining (name : κ) (id : Nat)
  deriving DecidableEq, Repr

structure St (κ : Type) where
  /-- `_threadMap` -/
  map : κ → Option Nat
  tasks : Nat → Option Task
  next : Nat
  ctl : Ctl κ
  /-- `std::terminate` was called -/
  terminated : Bool
  /-- tasks published to the event loop and not yet run there -/
  queue : List Nat
  /-- ghost: executions of the user's function of every task -/
  ran : Nat → Nat

def St.init {κ : Type} : St κ := ⟨fun _ => none, fun _ => none, 0, .idle, false, [], fun _ => 0⟩

inductive Act (κ : Type) where
  | start (name : κ) (isRepeat : Bool)
  | stop (name : κ)
  | joined
  | test (id : Nat)
  | wake (id : Nat)
  | finish (id : Nat)
  /-- the event loop runs the oldest published task -/
  | loop
  /-- the function of task `id` throws (basic scheduler) -/
  | throws (id : Nat)
  /-- the function of task `id` calls `stopScheduledTask(name)` for itself (basic scheduler); `caught`: it catches the exception it gets -/
  | stopSelf (name : κ) (id : Nat) (caught : Bool)
  deriving DecidableEq, Repr

variable {κ : Type} [DecidableEq κ]

def step (viaLoop : Bool) (s : St κ) (a : Act κ) : Option (St κ) :=
  if s.terminated then none
  else match a with
  -- `startScheduledTask`, basic_scheduler.cpp 72-80.  If the name is in the map the assignment destroys the old `ScheduledThread`
  -- whose thread has not been joined: `std::terminate`.  `start`, 29-62, sets `_isRunning` before it creates the thread.
  | .start name r =>
    if s.ctl = .idle then
      match s.map name with
      | some _ => some { s with terminated := true }
      | none => some { s with map := upd s.map name (some s.next), tasks := upd s.tasks s.next (some ⟨r, true, .test⟩),
                              next := s.next + 1 }
    else none
  -- `stopScheduledTask`, 82-88, and `stop`, 64-66
  | .stop name =>
    if s.ctl = .idle then
      match s.map name with
      | none => some s
      | some id => match s.tasks id with
        | some t => some { s with tasks := upd s.tasks id (some { t with isRunning := false }), ctl := .joining name id }
        | none => none
    else none
  -- 67-70, 86
  | .joined =>
    match s.ctl with
    | .joining name id => match s.tasks id with
      | some t => if t.pc = .done then some { s with ctl := .idle, map := upd s.map name none } else none
      | none => none
    | .idle => none
  -- 36 and 54
  | .test id => match s.tasks id with
    | some t => if t.pc = .test then
        some { s with tasks := upd s.tasks id (some { t with pc := if t.isRunning then .sleeping else .done }) }
      else none
    | none => none
  -- 39, 55: the sleep ends and the task is called; with the event loop this publishes the user's function
  -- (event_loop_scheduler.cpp 27-29)
  | .wake id => match s.tasks id with
    | some t => if t.pc = .sleeping then
        if viaLoop then some { s with tasks := upd s.tasks id (some { t with pc := .inTask }), queue := s.queue ++ [id] }
        else some { s with tasks := upd s.tasks id (some { t with pc := .inTask }), ran := upd s.ran id (s.ran id + 1) }
      else none
    | none => none
  -- the task returns
  | .finish id => match s.tasks id with
    | some t => if t.pc = .inTask then
        some { s with tasks := upd s.tasks id (some { t with pc := if t.isRepeat then .test else .done }) }
      else none
    | none => none
  | .loop => match s.queue with
    | id :: q => some { s with queue := q, ran := upd s.ran id (s.ran id + 1) }
    | [] => none
  -- 48, 56: nothing catches in the thread, `std::terminate`.  The function given by the event loop scheduler publishes only.
  | .throws id => match s.tasks id with
    | some t => if t.pc = .inTask && !viaLoop then some { s with terminated := true } else none
    | none => none
  -- 84-85, 66-68: `join` of the own thread throws `std::system_error`, before the name is erased (86)
  | .stopSelf name id caught => match s.tasks id with
    | some t => if t.pc = .inTask && !viaLoop && s.ctl = .idle && s.map name = some id then
        some { s with tasks := upd s.tasks id (some { t with isRunning := false }), terminated := !caught }
      else none
    | none => none

inductive Reach (viaLoop : Bool) : St κ → Prop where
  | init : Reach viaLoop St.init
  | step {s s'} (a : Act κ) (h : Reach viaLoop s) (hs : step viaLoop s a = some s') : Reach viaLoop s'

def run (viaLoop : Bool) (s : St κ) : List (Act κ) → Option (St κ)
  | [] => some s
  | a :: as => match step viaLoop s a with
    | none => none
    | some s' => run viaLoop s' as

end Verif.Sched
