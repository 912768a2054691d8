import Verif.Model.StateMachine

/-!
What C32-C36 mean, without the implementation: a configuration is an automaton; the history of calls says which events were
accepted and which actions are registered.
-/

namespace Verif.Fsm.Spec
open Verif.Fsm

/-- The declaration of a state: the last one with that id. -/
def decl (c : Cfg) (q : String) : Option CfgState := (c.states.filter (fun st => st.id = q)).getLast?

/-- The first state with a non-empty id. -/
def initial (c : Cfg) : String := match c.states.find? (fun st => st.id ≠ "") with
  | some st => st.id
  | none => ""

/-- The transition an event causes in a state: the first one declared for the event. -/
def delta (c : Cfg) (q e : String) : Option String :=
  match decl c q with
  | none => none
  | some st => (st.transitions.find? (fun t => t.event = e)).map (·.dest)

/-- The automaton on a word: events without a transition are dropped. -/
def exec (c : Cfg) : String → List String → String
  | q, [] => q
  | q, e :: es => exec c ((delta c q e).getD q) es

/-- Is the machine started after these calls? -/
def isStarted (b : Bool) : List Op → Bool
  | [] => b
  | .start :: ops => isStarted true ops
  | .stop :: ops | .reset :: ops => isStarted false ops
  | _ :: ops => isStarted b ops

/-- The events handed over while the machine was started, in order. -/
def accepted (b : Bool) : List Op → List String
  | [] => []
  | .start :: ops => accepted true ops
  | .stop :: ops | .reset :: ops => accepted false ops
  | .enqueue e :: ops | .enqueueAndUpdate e :: ops => if b then e :: accepted b ops else accepted b ops
  | _ :: ops => accepted b ops

/-- Every destination is declared. -/
def Closed (c : Cfg) : Prop := ∀ st ∈ c.states, ∀ t ∈ st.transitions, ∃ st' ∈ c.states, st'.id = t.dest

/-- Entry actions registered for the state, newest history first. -/
def entry (machine s : String) : List LOp → List Nat
  | [] => []
  | .addAction s' a :: h => if completeName machine s' = s then entry machine s h ++ [a] else entry machine s h
  | _ :: h => entry machine s h

/-- One-off actions registered for the state since it was last entered, newest history first. -/
def once (machine s : String) : List LOp → List Nat
  | [] => []
  | .addOneOff s' a :: h => if completeName machine s' = s then once machine s h ++ [a] else once machine s h
  | .notified s' true :: h => if s' = s then [] else once machine s h
  | _ :: h => once machine s h

/-- Periodic actions registered for the state and not removed, newest history first. -/
def each (machine s : String) : List LOp → List Nat
  | [] => []
  | .addPeriodic s' a :: h => if completeName machine s' = s then each machine s h ++ [a] else each machine s h
  | .removeState s' :: h => if completeName machine s' = s then [] else each machine s h
  | .removeAll :: _ => []
  | _ :: h => each machine s h

end Verif.Fsm.Spec

namespace Verif.Fsm

/-- The machine after a history of calls. -/
def after (c : Cfg) (ops : List Op) : M := (runOps (create c) ops).1

end Verif.Fsm
