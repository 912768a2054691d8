import Verif.Spec.Locks

/-! What data races are, and which mutex is there for which data. -/

namespace Verif.Locks
open Verif

/-- Two threads are about to access the same data, and one of them writes: nothing orders the two accesses. -/
def Race (s : St) (x : Var) : Prop :=
  ∃ t u, t ≠ u ∧ ∃ w r st w' r' st', s.stack t = (.acc x w :: r) :: st ∧ s.stack u = (.acc x w' :: r') :: st' ∧ (w || w') = true

/-- The mutex meant to protect the data, if there is one. -/
def guardOf : Var → Option Mx
  | .listeners e | .lastId e => some (.emitter e)
  | .services c => some (.services c)
  | .serviceStats c => some (.serviceStats c)
  | .functions c => some (.functions c)
  | .publications c => some (.publications c)
  | .subscriptions c => some (.subscriptions c)
  | .items q | .bound q => some (.queue q)
  | .props n => some (.env n)
  | .conf _ => none
  | .cached l | .copyTime l => some (.cache l)
  | .requests h => some (.handler h)
  | .topics p => some (.poller p)

/-- The accesses to `x` that a piece of code will make: is each of them a write? -/
def accesses (x : Var) : List I → List Bool
  | [] => []
  | .acc y w :: r => if y = x then w :: accesses x r else accesses x r
  | _ :: r => accesses x r

/-- Those of them that are made without the mutex of `x` locked by the same call. -/
def unguarded (x : Var) : List I → List Bool
  | [] => []
  | .acc y w :: r => if y = x ∧ (∀ m, guardOf x = some m → m ∉ pend r) then w :: unguarded x r else unguarded x r
  | _ :: r => unguarded x r

/-- The program takes care of what the library does not protect: a function that accesses `x` without its mutex is called only while no other thread is in a
function that will access `x` in a conflicting way, and the other way round. -/
def Careful (x : Var) (s : St) (t : Nat) (f : Fn) : Prop :=
  ∀ u, u ≠ t → ∀ fr ∈ s.stack u,
    (∀ w ∈ unguarded x (code f), ∀ w' ∈ accesses x fr, (w || w') = false) ∧ (∀ w ∈ accesses x (code f), ∀ w' ∈ unguarded x fr, (w || w') = false)

/-- The functions that access `x` without its mutex. -/
def unprotected : Var → Fn → Bool
  | .listeners e, .emit e' _ | .listeners e, .discard e' | .listeners e, .getStats e' | .listeners e, .removeAll e' _ _ => e' == e
  | .serviceStats c, .attachService c' | .serviceStats c, .detachService c' | .serviceStats c, .startStop c' => c' == c
  | .functions c, .startStop c' | .publications c, .startStop c' | .subscriptions c, .startStop c' => c' == c
  | .publications c, .detachPublication c' => c' == c
  | .items q, .qMove q' => q' == q
  | .items q, .qMoveAssign a b => b == q && a != b
  | .bound q, .qSetBound q' => q' == q
  | .conf n, .zenvGet n' | .conf n, .zenvSet n' | .conf n, .zenvLoad n' _ => n' == n
  | .conf n, .zenvPoll n' a => n' == n && a
  | .copyTime l, .cacheTime l' => l' == l
  | .requests h, .replyEarly h' _ _ => h' == h
  | _, _ => false

end Verif.Locks
