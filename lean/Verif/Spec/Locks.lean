import Verif.Model.Locks

/-! What deadlocks are, and which programs are considered. -/

namespace Verif.Locks
open Verif

/-- Thread `t` holds the mutex. -/
def Holds (s : St) (t : Nat) (m : Mx) : Prop := s.owner m = some t

/-- Thread `t` is about to lock the mutex (or to wait for the end of a worker), and somebody holds it (the worker has not ended). -/
def Blocked (s : St) (t : Nat) (m : Mx) : Prop := ∃ r st, s.stack t = (.acq m :: r) :: st ∧ s.owner m ≠ none

/-- Some threads wait only for each other. -/
def Deadlock (s : St) (S : List Nat) : Prop := S ≠ [] ∧ ∀ t ∈ S, ∃ m u, Blocked s t m ∧ Holds s u m ∧ u ∈ S

/-- The thread is inside a function of the library. -/
def Inside (s : St) (t : Nat) : Prop := s.stack t ≠ []

/-- States reached by programs whose calls all satisfy `P`. -/
inductive Reach (P : St → Nat → Fn → Prop) : St → Prop where
  | init : Reach P St.init
  | step {s s'} (a : Act) (h : Reach P s) (hp : ∀ t f, a = .call t f → P s t f) (hs : step s a = some s') : Reach P s'

/-- Any program. -/
def Anything (_ : St) (_ : Nat) (_ : Fn) : Prop := True

/-- The mutexes a piece of code locks. -/
def locks : List I → List Mx
  | [] => []
  | .acq m :: r => m :: locks r
  | _ :: r => locks r

/-- The call respects an order of the mutexes: code that runs while its thread holds mutexes only calls functions that lock later ones, and queues are
swapped or assigned in that order. -/
def InOrder (rank : Mx → Nat) (s : St) (t : Nat) (f : Fn) : Prop :=
  (∀ h, Holds s t h → ∀ m ∈ locks (code f), rank h < rank m) ∧ (∀ a b, f = .qSwap a b ∨ f = .qAssign a b → a ≠ b → rank (.queue a) < rank (.queue b))

/-- Is it a mutex (not the life of a worker thread)? -/
def Mx.isMutex : Mx → Bool
  | .life _ => false
  | _ => true

/-- The call is made while its thread holds no mutex, is not an exchange of two queues, and workers are joined by other threads than workers. -/
def Plain (s : St) (t : Nat) (f : Fn) : Prop :=
  (∀ h, Holds s t h → h.isMutex = false) ∧ (∀ a b, f ≠ .qSwap a b ∧ f ≠ .qAssign a b) ∧ ∀ w, f = .join w → ∀ h, ¬ Holds s t h

/-- The thread is in the listener of an emitter, called from its own code, or from the code of a worker, or from a listener called so, and so on. -/
def OnlyListeners (l : List (List I)) : Prop := ∀ fr ∈ l, ∃ k r, fr = .user k :: r ∧ (k = .listener ∨ k = .worker)

end Verif.Locks
