import Verif.Spec.Fair
import Verif.Model.MemPoller

/-! Infinite executions of the in-memory middleware. -/

namespace Verif.MemP
open Verif Verif.SQ Verif.Fair

variable {T : Type}

/-- An infinite execution from a reachable state of a middleware with bound `n`. -/
structure Run (d : Bool) (n : Nat) (σ : Nat → St T) (α : Nat → Option (Act T)) : Prop where
  start : Reach d n (σ 0)
  exec : Exec (step d) σ α

/-- A step of the poller: it asks the queue, its waiting time is over, it gets the mutex of the queue again, or it calls the listeners. -/
def PollTurn : Act T → Prop
  | .bm (.poll ..) | .bm .emit | .bm (.wake (.expireNE _)) | .bm (.wake (.resumeNE ..)) => True
  | _ => False

/-- The poller runs at time `i`, no listener throws from then on, and its thread gets its turn again and again. -/
structure PollAlive (σ : Nat → St T) (α : Nat → Option (Act T)) (i : Nat) : Prop where
  running : (σ i).alive = true
  calm : ∀ j, i ≤ j → α j ≠ some .throw
  fair : FairTo (fun s : St T => s.alive = true) PollTurn σ α

/-- A woken publisher gets the mutex of the queue. -/
def PubTurn : Act T → Prop
  | .bm (.wake (.resumeNF ..)) => True
  | _ => False

/-- As long as there are woken publishers, one of them gets its turn again and again. -/
def PubFair (σ : Nat → St T) (α : Nat → Option (Act T)) : Prop := FairTo (fun s : St T => s.bm.sq.knf ≠ []) PubTurn σ α

/-- Publishers inside a blocking `publish`: waiting for room, or woken and waiting for the mutex. -/
def St.waiting (s : St T) : List (Nat × T) := s.bm.sq.wnf ++ s.bm.sq.knf

end Verif.MemP
