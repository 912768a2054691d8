import Verif.Basic

/-!
Finite state machine (SM = state_machine/modules/state_machine; SM/src/state_machine_impl.cpp, transition_impl.cpp, state_impl.cpp,
sm_factory_impl.cpp, state_machine_listener.cpp).  Observers and actions are numbers; calling one is recorded in the output.
Simplification: observers and actions do not call back into the state machine or the listener while they are being called
(see `updateR` for observers that call `enqueueAndUpdate`).
-/

namespace Verif.Fsm

/-- `TransitionImpl` (transition_impl.cpp 20-31): event and destination. -/
structure Tr where
  event : String
  dest : String
  deriving DecidableEq, Repr

/-- State of a configuration (config_state_machine.h; `StateImpl`). -/
structure CfgState where
  id : String
  transitions : List Tr
  deriving DecidableEq, Repr

/-- `ConfigStateMachine`. -/
structure Cfg where
  id : String
  states : List CfgState
  deriving DecidableEq, Repr

/-- `StateMachineImpl` (state_machine_impl.h 48-59). -/
structure M where
  id : String
  started : Bool
  initial : String
  cur : String
  /-- `_stateTable` -/
  table : String → Option (List Tr)
  /-- `_eventQueue` -/
  queue : List String
  /-- `_observers` -/
  observers : List Nat

/-- A call of an observer: which one, the state name and the change flag it is given. -/
structure Note where
  obs : Nat
  state : String
  changed : Bool
  deriving DecidableEq, Repr

/-- Constructor loop, state_machine_impl.cpp 28-30: `_stateTable[state->getId()] = state`. -/
def buildTable (l : List CfgState) : String → Option (List Tr) :=
  l.foldl (fun t st => upd t st.id (some st.transitions)) (fun _ => none)

/-- sm_factory_impl.cpp 31-36: the initial state id while looping over the states. -/
def initialOf (l : List CfgState) : String := l.foldl (fun i st => if i = "" then st.id else i) ""

/-- `createStateMachine` (sm_factory_impl.cpp 27-45) and the constructor (state_machine_impl.cpp 20-31). -/
def create (c : Cfg) : M where
  id := c.id
  started := false
  initial := initialOf c.states
  cur := initialOf c.states
  table := buildTable c.states
  queue := []
  observers := []

/-- `updateObservers` (75-80). -/
def notify (m : M) (s : String) (changed : Bool) : List Note := m.observers.map (fun o => ⟨o, m.id ++ ":" ++ s, changed⟩)

/-- The loop over the transitions (54-60): the first transition that can be taken. -/
def firstMatch (e : String) : List Tr → Option String
  | [] => none
  | t :: ts => if e = t.event then some t.dest else firstMatch e ts

/-- The loop over the queue (51-64); `_currentStateId` cannot change before the loop is left, so its transitions are a parameter.
Gives the new current state, the rest of the queue and `stateChanged`. -/
def consume (trs : List Tr) (cur : String) : List String → String × List String × Bool
  | [] => (cur, [], false)
  | e :: q => match firstMatch e trs with
    | some d => (d, q, true)
    | none => consume trs cur q

/-- `update` (46-67). -/
def update (m : M) : M × List Note :=
  if m.started then
    match m.table m.cur with
    | some trs =>
      let r := consume trs m.cur m.queue
      let m' := { m with cur := r.1, queue := r.2.1 }
      (m', notify m' r.1 r.2.2)
    | none => (m, [])
  else (m, [])

/-- `enqueueEvent` (82-87). -/
def enqueue (m : M) (e : String) : M := if m.started then { m with queue := m.queue ++ [e] } else m

inductive Op where
  | start | stop | reset | update
  | enqueue (e : String)
  | enqueueAndUpdate (e : String)
  | registerObserver (o : Nat)
  | unregisterObservers
  deriving DecidableEq, Repr

/-- All public operations of `StateMachineImpl`. -/
def step (m : M) : Op → M × List Note
  -- 32-36
  | .start => ({ m with started := true }, notify m m.cur true)
  -- 37-40
  | .stop => ({ m with started := false }, [])
  -- 41-45
  | .reset => ({ m with started := false, cur := m.initial }, [])
  | .update => Fsm.update m
  | .enqueue e => (Fsm.enqueue m e, [])
  -- 69-73
  | .enqueueAndUpdate e => Fsm.update (Fsm.enqueue m e)
  -- 89-93
  | .registerObserver o => ({ m with observers := m.observers ++ [o] }, [])
  -- 95-98
  | .unregisterObservers => ({ m with observers := [] }, [])

def runOps (m : M) : List Op → M × List Note
  | [] => (m, [])
  | op :: ops =>
    let r := step m op
    let r2 := runOps r.1 ops
    (r2.1, r.2 ++ r2.2)

/-! `update` with observers that call `enqueueAndUpdate` from inside their notification: `react o s ch` are the events observer `o`
sends when it is told of state `s` with flag `ch`.  The recursion is cut off after `n` nested calls. -/

/-- the calls made by one observer; `u` is the nested `update` -/
def reactR (u : M → M × List Note) (m : M) : List String → M × List Note
  | [] => (m, [])
  | e :: es =>
    let r := u (enqueue m e)
    let r2 := reactR u r.1 es
    (r2.1, r.2 ++ r2.2)

/-- 75-80 with nested calls -/
def notifyR (u : M → M × List Note) (react : Nat → String → Bool → List String) (s : String) (ch : Bool) (m : M) :
    List Nat → M × List Note
  | [] => (m, [])
  | o :: os =>
    let r := reactR u m (react o s ch)
    let r2 := notifyR u react s ch r.1 os
    (r2.1, ⟨o, s, ch⟩ :: r.2 ++ r2.2)

/-- 46-67 with nested calls -/
def updateR (react : Nat → String → Bool → List String) : Nat → M → M × List Note
  | 0, m => (m, [])
  | n + 1, m =>
    if m.started then
      match m.table m.cur with
      | some trs =>
        let r := consume trs m.cur m.queue
        notifyR (updateR react n) react (m.id ++ ":" ++ r.1) r.2.2 { m with cur := r.1, queue := r.2.1 } m.observers
      | none => (m, [])
    else (m, [])

/-! `StateMachineListener` -/

/-- `StateMachineListener` (state_machine_listener.h 45-52); a missing map entry and an empty vector behave alike everywhere. -/
structure L where
  machine : String
  actions : String → List Nat
  oneOff : String → List Nat
  periodic : String → List Nat

def L.init (machine : String) : L := ⟨machine, fun _ => [], fun _ => [], fun _ => []⟩

/-- `getCompleteName` (state_machine_listener.cpp 77-84). -/
def completeName (machine s : String) : String := if machine = "" then s else machine ++ ":" ++ s

inductive LOp where
  | addAction (s : String) (a : Nat)
  | addOneOff (s : String) (a : Nat)
  | addPeriodic (s : String) (a : Nat)
  | removeState (s : String)
  | removeAll
  /-- the observer function is called: `updateCurrentState` -/
  | notified (s : String) (changed : Bool)
  deriving DecidableEq, Repr

/-- A call of an action: the action and the state name it is given. -/
abbrev Call := Nat × String

/-- All operations of the listener (25-75). -/
def lstep (l : L) : LOp → L × List Call
  | .addAction s a =>
    let n := completeName l.machine s
    ({ l with actions := upd l.actions n (l.actions n ++ [a]) }, [])
  | .addOneOff s a =>
    let n := completeName l.machine s
    ({ l with oneOff := upd l.oneOff n (l.oneOff n ++ [a]) }, [])
  | .addPeriodic s a =>
    let n := completeName l.machine s
    ({ l with periodic := upd l.periodic n (l.periodic n ++ [a]) }, [])
  | .removeState s => ({ l with periodic := upd l.periodic (completeName l.machine s) [] }, [])
  | .removeAll => ({ l with periodic := fun _ => [] }, [])
  | .notified s changed =>
    if changed then
      ({ l with oneOff := upd l.oneOff s [] },
        (l.oneOff s).map (·, s) ++ (l.actions s).map (·, s) ++ (l.periodic s).map (·, s))
    else (l, (l.periodic s).map (·, s))

def lrun (l : L) : List LOp → L × List Call
  | [] => (l, [])
  | op :: ops =>
    let r := lstep l op
    let r2 := lrun r.1 ops
    (r2.1, r.2 ++ r2.2)

end Verif.Fsm
