import Verif.Model.ElSched
import Verif.Props.ElDispatch

/-!
Specification for C86: the observations on an event loop scheduler.
-/

namespace Verif.ElS
open Verif

variable {D κ : Type} [DecidableEq κ]

/-- The firings so far: each time the thread of a task found it due and handed it to the event loop. -/
def firings (s : St D κ) : List Nat := s.sch.queue

/-- The task, if the published thing is one. -/
def asTask : ElD.Msg D Nat → Option Nat
  | .fn id => some id
  | .ev _ => none

/-- The firings the ring has accepted, in order. -/
def accepted (s : St D κ) : List Nat := (EvLoop.acceptedInOrder s.el.loop).filterMap fun a => asTask a.2.2.1

/-- Calls of task functions by the loop in a history, in order. -/
def called (h : List (ElD.Ev (ElD.Msg D Nat))) : List Nat :=
  h.filterMap fun | .call _ m _ => asTask m | _ => none

/-- All calls by the loop in a history, of tasks and of listeners. -/
def allCalls (h : List (ElD.Ev (ElD.Msg D Nat))) : List (Nat × ElD.Msg D Nat) :=
  h.filterMap fun | .call no m _ => some (no, m) | _ => none

/-- Is the thread of the task inside `publish`, before the decision of the ring? -/
def undecided (s : St D κ) (id : Nat) : Nat :=
  match s.el.loop.pc (thr id) with
  | .claiming _ _ => 1
  | _ => 0

/-- The provider is used as C79 requires. -/
def Ok (s : St D κ) : Act D κ → Prop
  | .el a => ElD.OkDrained s.el a
  | _ => True

inductive Reach (k : Nat) (c : Bool) (kind : ElD.Kind) : St D κ → Prop where
  | init : Reach k c kind (St.init kind)
  | step {s s' a} : Reach k c kind s → Ok s a → step k c s a = some s' → Reach k c kind s'

/-- Further steps. -/
inductive Steps (k : Nat) (c : Bool) (s : St D κ) : St D κ → Prop where
  | refl : Steps k c s s
  | step {s1 s2 a} : Steps k c s s1 → Ok s1 a → step k c s1 a = some s2 → Steps k c s s2

/-- A step of the thread of task `id`, other than a spurious failure of the compare-and-set. -/
def OfThread (id : Nat) : Act D κ → Prop
  | .test i | .wake i | .finish i => i = id
  | .el (.loop (.claim p)) | .el (.loop (.write p)) | .el (.loop (.publish p)) => p = thr id
  | _ => False

end Verif.ElS
