import Verif.Model.StateMachine

/-!
The state machine of Model/StateMachine with its observers and listeners, where observers and actions are code of the user that is called and may do
anything while it is being called: use the machine (also `update`, so that notifications are nested), register or remove observers and actions, return,
throw.  One thread; the call stack is explicit.  SM = state_machine/modules/state_machine (SM/src/state_machine_impl.cpp = I,
SM/src/state_machine_listener.cpp = Li).

The loops `for (auto x : vector)` keep two iterators.  A vector that is changed (`push_back`, `clear`) or destroyed (`erase`, `clear` of the map) has invalid
iterators; using one is undefined behaviour (`bad`).  Every vector has a version that is changed with it; a loop remembers the version of its vector at its start
and is `bad` if it goes on with another one.  (`push_back` makes the iterator to the end invalid even without a new allocation.)  Adding an entry to an `unordered_map`
does not move the vectors of the others.  An exception ends the loops without using their iterators.
-/

namespace Verif.FsmR
open Verif Verif.Fsm

/-- The three maps of a listener (state_machine_listener.h 45-52): `_oneOffActions`, `_actions`, `_periodicActions`. -/
inductive Kind where
  | once | entry | each
  deriving DecidableEq, Repr

/-- What is on the call stack. -/
inductive Frame where
  /-- the loop of `updateObservers` (I 75-80): number of the notification, its arguments, version of `_observers` at the start, observers not yet called -/
  | notify (id : Nat) (s : String) (ch : Bool) (v : Nat) (rest : List Nat)
  /-- a loop of `updateCurrentState` (Li 55-75) of listener `o` -/
  | acts (id : Nat) (o : Nat) (s : String) (k : Kind) (v : Nat) (rest : List Nat)
  /-- code of the user: an observer or an action -/
  | user
  deriving DecidableEq, Repr

/-- A call of the API. -/
inductive UOp where
  /-- of the machine -/
  | m (op : Op)
  /-- of listener `o` (`notified`: the function given by `getObserverFunc`, called directly) -/
  | l (o : Nat) (op : LOp)
  deriving DecidableEq, Repr

/-- What happens, in order. -/
inductive Ev where
  /-- a call of the API begins -/
  | op (x : UOp)
  /-- notification `id` begins, with these observers registered -/
  | begin (id : Nat) (s : String) (ch : Bool) (obs : List Nat)
  /-- observer `o` is called for notification `id` -/
  | call (id : Nat) (o : Nat) (s : String) (ch : Bool)
  /-- notification `id` has called all observers -/
  | fin (id : Nat)
  /-- the loop of kind `k` over the actions of listener `o` for state `s` begins, with these actions -/
  | phase (id : Nat) (o : Nat) (s : String) (k : Kind) (as : List Nat)
  /-- an action is called by that loop -/
  | act (id : Nat) (o : Nat) (s : String) (k : Kind) (a : Nat)
  /-- that loop is over -/
  | over (id : Nat) (o : Nat) (s : String) (k : Kind)
  /-- code of the user throws -/
  | threw
  deriving DecidableEq, Repr

structure St where
  m : M
  /-- the listeners, by the number of their observer function -/
  lst : Nat → L
  /-- version of `_observers` -/
  over : Nat
  /-- version of the vector of listener, map and key -/
  lver : Nat → Kind → String → Nat
  stack : List Frame
  /-- an invalid iterator was used -/
  bad : Bool
  /-- number for the next notification or loop -/
  nid : Nat
  hist : List Ev

/-- A new machine (sm_factory_impl.cpp 27-45) and listeners with the names `name` (Li 22-24). -/
def St.init (c : Cfg) (name : Nat → String) : St := ⟨create c, fun o => L.init (name o), 0, fun _ _ _ => 0, [], false, 0, []⟩

/-- Code of the user is running: the main program, an observer or an action. -/
def userTurn : List Frame → Bool
  | [] => true
  | .user :: _ => true
  | _ => false

/-- The notification a call causes, if any (arguments of the observers): `start` (I 32-36), `update` (I 46-67), `enqueueAndUpdate` (I 69-73); `update` notifies if the
machine is started and the current state is in the table. -/
def notice (m : M) : Op → Option (String × Bool)
  | .start => some (m.id ++ ":" ++ m.cur, true)
  | .update => if m.started then (m.table m.cur).map fun trs => (m.id ++ ":" ++ (consume trs m.cur m.queue).1, (consume trs m.cur m.queue).2.2) else none
  | .enqueueAndUpdate e => if m.started then (m.table m.cur).map fun trs => (m.id ++ ":" ++ (consume trs m.cur (m.queue ++ [e])).1, (consume trs m.cur (m.queue ++ [e])).2.2) else none
  | _ => none

/-- The vector of a listener. -/
def vec (l : L) : Kind → String → List Nat
  | .once => l.oneOff
  | .entry => l.actions
  | .each => l.periodic

/-- A changed vector. -/
def touch (f : Nat → Kind → String → Nat) (o : Nat) (k : Kind) (n : String) : Nat → Kind → String → Nat :=
  fun o' k' n' => if o' = o ∧ k' = k ∧ n' = n then f o' k' n' + 1 else f o' k' n'

/-- The versions after a registration or removal of actions (Li 25-53). -/
def versions (s : St) (o : Nat) : LOp → Nat → Kind → String → Nat
  | .addAction n _ => touch s.lver o .entry (completeName (s.lst o).machine n)
  | .addOneOff n _ => touch s.lver o .once (completeName (s.lst o).machine n)
  | .addPeriodic n _ => touch s.lver o .each (completeName (s.lst o).machine n)
  | .removeState n => touch s.lver o .each (completeName (s.lst o).machine n)
  | .removeAll => fun o' k' n' => if o' = o ∧ k' = .each then s.lver o' k' n' + 1 else s.lver o' k' n'
  | .notified .. => s.lver

/-- A loop over the actions of a kind begins (Li 58-59, 64-65, 70-71; a missing entry and an empty vector are alike). -/
def startPhase (s : St) (o : Nat) (n : String) (k : Kind) (below : List Frame) : St :=
  { s with stack := .acts s.nid o n k (s.lver o k n) (vec (s.lst o) k n) :: below, nid := s.nid + 1, hist := s.hist ++ [.phase s.nid o n k (vec (s.lst o) k n)] }

/-- `updateCurrentState` is called (Li 55-57). -/
def listen (s : St) (o : Nat) (n : String) (ch : Bool) : St := startPhase s o n (if ch then .once else .each) s.stack

inductive Act where
  /-- code of the user calls the API -/
  | op (x : UOp)
  /-- the library goes on -/
  | tick
  /-- code of the user returns to the library -/
  | ret
  /-- code of the user throws, or does not catch what has been thrown in a call it made -/
  | throw
  deriving DecidableEq, Repr

/-- A call of the API by the user; `notified` is `updateCurrentState`, everything else of a listener is as in Model/StateMachine. -/
def call (s : St) : UOp → St
  | .m op =>
    let s1 := { s with
      m := (Fsm.step s.m op).1
      over := match op with
        | .registerObserver _ | .unregisterObservers => s.over + 1
        | _ => s.over
      hist := s.hist ++ [.op (.m op)] }
    match notice s.m op with
    | none => s1
    | some (n, ch) => { s1 with stack := .notify s.nid n ch s1.over s1.m.observers :: s.stack, nid := s.nid + 1, hist := s1.hist ++ [.begin s.nid n ch s1.m.observers] }
  | .l o (.notified n ch) => listen { s with hist := s.hist ++ [.op (.l o (.notified n ch))] } o n ch
  | .l o op => { s with lst := upd s.lst o (lstep (s.lst o) op).1, lver := versions s o op, hist := s.hist ++ [.op (.l o op)] }

/-- The library goes on; `lis o`: observer `o` is the function of a listener. -/
def tick (lis : Nat → Bool) (s : St) : Option St :=
  match s.stack with
  -- I 77-79
  | .notify id n ch v rest :: below =>
    if s.over ≠ v then some { s with bad := true }
    else match rest with
      | [] => some { s with stack := below, hist := s.hist ++ [.fin id] }
      | o :: r =>
        let s1 := { s with stack := .notify id n ch v r :: below, hist := s.hist ++ [.call id o n ch] }
        if lis o then some (listen s1 o n ch) else some { s1 with stack := .user :: s1.stack }
  -- Li 58-75
  | .acts id o n k v rest :: below =>
    if s.lver o k n ≠ v then some { s with bad := true }
    else match rest with
      | a :: r => some { s with stack := .user :: .acts id o n k v r :: below, hist := s.hist ++ [.act id o n k a] }
      | [] =>
        let s1 := { s with hist := s.hist ++ [.over id o n k] }
        match k with
        -- Li 62: `_oneOffActions.erase(currentStateId)`
        | .once => some (startPhase { s1 with lst := upd s.lst o { s.lst o with oneOff := upd (s.lst o).oneOff n [] }, lver := touch s.lver o .once n } o n .entry below)
        | .entry => some (startPhase s1 o n .each below)
        | .each => some { s1 with stack := below }
  | _ => none

/-- An exception leaves the frames of the library. -/
def unwind : List Frame → List Frame
  | .notify .. :: r => unwind r
  | .acts .. :: r => unwind r
  | st => st

/-- One step; nothing is said about what happens after undefined behaviour. -/
def step (lis : Nat → Bool) (s : St) (a : Act) : Option St :=
  if s.bad then none
  else match a with
    | .op x => if userTurn s.stack then some (call s x) else none
    | .tick => tick lis s
    | .ret => match s.stack with
      | .user :: below => some { s with stack := below }
      | _ => none
    | .throw => match s.stack with
      | .user :: below => some { s with stack := unwind below, hist := s.hist ++ [.threw] }
      | _ => none

def run (lis : Nat → Bool) (s : St) : List Act → Option St
  | [] => some s
  | a :: as => match step lis s a with
    | none => none
    | some s' => run lis s' as

end Verif.FsmR
