import Verif.Spec.ElDispatch
import Verif.Spec.LoopLive
import Verif.Props.EventLoop

/-! Infinite executions of an event loop provider with its listeners, for C79. -/

namespace Verif.ElD
open Verif Verif.Fair

variable {D F : Type}

/-- Used as required, and with the loop only restarted when all accepted events have been taken up (C31). -/
def OkDrained (s : St D F) (x : Act D F) : Prop := (Ok s x ∧ OkPtr s x) ∧ ∀ a, x = .loop a → EvLoop.DrainedStart s.loop a

/-- An infinite execution from a reachable state, used as required. -/
structure Run (k : Nat) (c : Bool) (kind : Kind) (σ : Nat → St D F) (α : Nat → Option (Act D F)) : Prop where
  hk : k ≤ 30
  start : Reach k c kind OkDrained (σ 0)
  exec : Exec (step k c) σ α
  ok : ∀ i a, α i = some a → OkDrained (σ i) a

/-- A step of the thread of the loop: in the ring, or a call of a listener comes to its end. -/
def LoopTurn : Act D F → Prop
  | .loop a => EvLoop.LoopTurn a
  | .call _ => True
  | _ => False

/-- The loop runs at time `i`, is not stopped from then on, and its thread gets its turn again and again (listeners come to an end). -/
structure LoopAlive (σ : Nat → St D F) (α : Nat → Option (Act D F)) (i : Nat) : Prop where
  running : (σ i).loop.ring.cp 0 ≠ .idle
  stays : ∀ j, i ≤ j → α j ≠ some (.loop .stop)
  fair : FairTo (fun s : St D F => s.loop.ring.cp 0 ≠ .idle) LoopTurn σ α

/-- Thread `p` gets its turn again and again while it is in `publish`, and the compare-and-set of `try_next` fails spuriously only
finitely often in this thread. -/
structure PubFair (σ : Nat → St D F) (α : Nat → Option (Act D F)) (p : Nat) : Prop where
  turn : FairTo (fun s : St D F => s.loop.pc p ≠ .idle) (fun x => ∃ a, x = .loop a ∧ EvLoop.PubTurn p a) σ α
  weak : ∃ n0, ∀ n, n0 ≤ n → α n ≠ some (.loop (.weak p))

end Verif.ElD
