import Verif.Model.RaStack

/-! Specification for C67: a plain list used as a stack. -/

namespace Verif.RaStack
open Verif Verif.LFS

variable {α : Type}

/-- The updates, oldest first, applied to a plain stack `l`, give `l'`; a take removes the top, which is the element it reports. -/
inductive Replays : List α → List (Upd α) → List α → Prop
  | nil (l : List α) : Replays l [] l
  | put {l us l'} (t : Nat) (v : α) : Replays (v :: l) us l' → Replays l (⟨true, t, v⟩ :: us) l'
  | take {l us l'} (t : Nat) (v : α) : Replays l us l' → Replays (v :: l) (⟨false, t, v⟩ :: us) l'

/-- What the lists hold initially: all elements are on the stack, no node is free. -/
def start (cap : Nat) (d : Nat → α) : Which → List α
  | .head => (List.range (min cap 65535)).map d
  | .free => []

/-- The elements `t` took from the stack. -/
def takes (t : Nat) (us : List (Upd α)) : List α := us.filterMap (fun u => if u.put = false ∧ u.thread = t then some u.val else none)

/-- The elements `t` put on the stack. -/
def puts (t : Nat) (us : List (Upd α)) : List α := us.filterMap (fun u => if u.put = true ∧ u.thread = t then some u.val else none)

/-- The values returned by successful calls of `pop`. -/
def popResults (rs : List (Call α × Res α)) : List α := rs.filterMap (fun r => match r with
  | (.pop, .popped (some v)) => some v
  | _ => none)

/-- The arguments of the calls of `push` that returned true. -/
def pushResults (rs : List (Call α × Res α)) : List α := rs.filterMap (fun r => match r with
  | (.push x, .pushed true) => some x
  | _ => none)

/-- The element of a call of `pop` that has its node and has not returned yet. -/
def pending (s : St α) (t : Nat) : List α := match s.pc t with
  | .holds .pop i => ((s.mem.writes i).head?).toList
  | .filled .pop _ v => [v]
  | .pLoaded .pop _ v _ => [v]
  | .pLinked .pop _ v _ => [v]
  | _ => []

/-- The node a thread has taken from one list and not yet put on the other. -/
def owns (s : St α) (t i : Nat) : Prop := match s.pc t with
  | .holds _ j => j = i
  | .filled _ j _ => j = i
  | .pLoaded _ j _ _ => j = i
  | .pLinked _ j _ _ => j = i
  | _ => False

end Verif.RaStack
