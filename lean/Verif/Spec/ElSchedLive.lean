import Verif.Spec.ElSched
import Verif.Spec.ElDispatchLive

/-! Infinite executions of an event loop with its scheduler, for C86. -/

namespace Verif.ElS
open Verif Verif.Fair

variable {D κ : Type} [DecidableEq κ]

/-- An infinite execution from a reachable state, used as required. -/
structure Run (k : Nat) (c : Bool) (kind : ElD.Kind) (σ : Nat → St D κ) (α : Nat → Option (Act D κ)) : Prop where
  hk : k ≤ 30
  start : Reach k c kind (σ 0)
  exec : Exec (step k c) σ α
  ok : ∀ i a, α i = some a → Ok (σ i) a

/-- A step of the thread of the loop: in the ring, a function or listener is called, or comes to its end. -/
def LoopTurn : Act D κ → Prop
  | .el a => ElD.LoopTurn a
  | .enter | .leave _ => True
  | _ => False

/-- The loop runs at time `i`, is not stopped from then on, and its thread gets its turn again and again (functions and listeners come to an end). -/
structure LoopAlive (σ : Nat → St D κ) (α : Nat → Option (Act D κ)) (i : Nat) : Prop where
  running : (σ i).el.loop.ring.cp 0 ≠ .idle
  stays : ∀ j, i ≤ j → α j ≠ some (.el (.loop .stop))
  fair : FairTo (fun s : St D κ => s.el.loop.ring.cp 0 ≠ .idle) LoopTurn σ α

/-- Thread `p` (of a task or of a user) gets its turn again and again while it is in `publish`, and the compare-and-set of `try_next` fails spuriously only
finitely often in this thread. -/
structure PubFair (σ : Nat → St D κ) (α : Nat → Option (Act D κ)) (p : Nat) : Prop where
  turn : FairTo (fun s : St D κ => s.el.loop.pc p ≠ .idle) (fun x => ∃ a, x = .el (.loop a) ∧ EvLoop.PubTurn p a) σ α
  weak : ∃ n0, ∀ n, n0 ≤ n → α n ≠ some (.el (.loop (.weak p)))

end Verif.ElS
