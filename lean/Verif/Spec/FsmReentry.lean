import Verif.Model.FsmReentry
import Verif.Spec.StateMachine

/-! What C91 means: about the history of calls only. -/

namespace Verif.FsmR
open Verif Verif.Fsm

/-- The calls of the machine, in the order in which they were made, at whatever depth of the call stack. -/
def machineOps (h : List Ev) : List Op := h.filterMap fun
  | .op (.m op) => some op
  | _ => none

/-- The calls of observers made for notification `id`. -/
def callsFor (id : Nat) (h : List Ev) : List (Nat × String × Bool) := h.filterMap fun
  | .call i o n ch => if i = id then some (o, n, ch) else none
  | _ => none

/-- The calls of actions made by loop `id`. -/
def actsFor (id : Nat) (h : List Ev) : List (Nat × Nat × String × Kind) := h.filterMap fun
  | .act i o n k a => if i = id then some (a, o, n, k) else none
  | _ => none

/-- The observers registered and not removed. -/
def observersOf (ops : List Op) : List Nat :=
  ops.foldl (fun l op => match op with | .registerObserver o => l ++ [o] | .unregisterObservers => [] | _ => l) []

/-- The actions of listener `o` that are due in state `n` after a history: one-off actions that were registered after the last time the loop over them came to
its end; entry actions ever registered; periodic actions registered and not removed. -/
def due (name : Nat → String) (o : Nat) (n : String) (k : Kind) (h : List Ev) : List Nat :=
  h.foldl (fun l e => match e, k with
    | .op (.l o' (.addOneOff s a)), .once => if o' = o ∧ completeName (name o) s = n then l ++ [a] else l
    | .over _ o' n' .once, .once => if o' = o ∧ n' = n then [] else l
    | .op (.l o' (.addAction s a)), .entry => if o' = o ∧ completeName (name o) s = n then l ++ [a] else l
    | .op (.l o' (.addPeriodic s a)), .each => if o' = o ∧ completeName (name o) s = n then l ++ [a] else l
    | .op (.l o' (.removeState s)), .each => if o' = o ∧ completeName (name o) s = n then [] else l
    | .op (.l o' .removeAll), .each => if o' = o then [] else l
    | _, _ => l) []

/-- When a call of the machine notifies, and with which arguments (`ops`: the calls made before): `start` always, with the current state; `update` and `enqueueAndUpdate` if the machine
is started and in a declared state, with the resulting state and whether a queued event had a transition; nothing else. -/
def Notifies (c : Cfg) (ops : List Op) (op : Op) (n : String) (ch : Bool) : Prop :=
  n = c.id ++ ":" ++ (after c (ops ++ [op])).cur ∧
  match op with
  | .start => ch = true
  | .update => (after c ops).started = true ∧ (Spec.decl c (after c ops).cur).isSome ∧ (ch = true ↔ ∃ e ∈ (after c ops).queue, Spec.delta c (after c ops).cur e ≠ none)
  | .enqueueAndUpdate e => (after c ops).started = true ∧ (Spec.decl c (after c ops).cur).isSome ∧ (ch = true ↔ ∃ e' ∈ (after c ops).queue ++ [e], Spec.delta c (after c ops).cur e' ≠ none)
  | _ => False

/-- Listener `o` is called with these arguments. -/
def Listens (lis : Nat → Bool) (o : Nat) (n : String) (ch : Bool) : Ev → Prop
  | .call _ o' n' ch' => o' = o ∧ lis o = true ∧ n' = n ∧ ch' = ch
  | .op (.l o' (.notified n' ch')) => o' = o ∧ n' = n ∧ ch' = ch
  | _ => False

/-- How often action `a` was registered as a one-off action for state `n`. -/
def added (name : Nat → String) (o : Nat) (n : String) (a : Nat) (h : List Ev) : Nat := h.countP fun
  | .op (.l o' (.addOneOff s b)) => o' = o ∧ completeName (name o) s = n ∧ b = a
  | _ => false

/-- How often it was called as one. -/
def ran (o : Nat) (n : String) (a : Nat) (h : List Ev) : Nat := h.countP fun
  | .act _ o' n' .once b => o' = o ∧ n' = n ∧ b = a
  | _ => false

/-- A loop over the actions of listener `o`, kind `k`, state `n`. -/
def Frame.over (o : Nat) (k : Kind) (n : String) : Frame → Bool
  | .acts _ o' n' k' _ _ => o' = o ∧ k' = k ∧ n' = n
  | _ => false

/-- A notification. -/
def Frame.isNotify : Frame → Bool
  | .notify .. => true
  | _ => false

/-- The one-off actions that are still to be run: the rest of the loop over them, if one is under way. -/
def waiting (s : St) (o : Nat) (n : String) : List Nat :=
  match s.stack.find? (Frame.over o .once n) with
  | some (.acts _ _ _ _ _ rest) => rest
  | _ => (s.lst o).oneOff n

/-- The vector (kind and name of the state) a call of a listener changes. -/
def changes (machine : String) : LOp → Kind → String → Prop
  | .addAction s _, k, n => k = .entry ∧ n = completeName machine s
  | .addOneOff s _, k, n => k = .once ∧ n = completeName machine s
  | .addPeriodic s _, k, n => k = .each ∧ n = completeName machine s
  | .removeState s, k, n => k = .each ∧ n = completeName machine s
  | .removeAll, k, _ => k = .each
  | .notified s ch, k, n => ch = true ∧ k = .once ∧ n = s

/-- What observers and actions must not do while they are called: register or remove observers during a notification; register or remove actions of a kind and
a state while actions of that kind and state are run; enter a state (with a change) while its one-off actions are run. -/
def Ok (s : St) : Act → Prop
  | .op (.m op) =>
    ((∃ o, op = .registerObserver o) ∨ op = .unregisterObservers → ∀ f ∈ s.stack, f.isNotify = false) ∧
    (∀ n, notice s.m op = some (n, true) → ∀ f ∈ s.stack, ∀ o, f.over o .once n = false)
  | .op (.l o op) => ∀ k n, changes (s.lst o).machine op k n → ∀ f ∈ s.stack, f.over o k n = false
  | _ => True

/-- The states of a machine and its listeners; `lis o`: observer `o` is the function of a listener, `name o`: the name that listener was given. -/
inductive Reach (lis : Nat → Bool) (c : Cfg) (name : Nat → String) (ok : St → Act → Prop) : St → Prop where
  | init : Reach lis c name ok (St.init c name)
  | step {s s' : St} {a : Act} : Reach lis c name ok s → ok s a → FsmR.step lis s a = some s' → Reach lis c name ok s'

end Verif.FsmR
