import Verif.Spec.Fair
import Verif.Lemmas.EventLoop

/-! Infinite executions of the event loop. -/

namespace Verif.EvLoop
open Verif Verif.Disr Verif.Fair

variable {D : Type}

/-- An infinite execution from a reachable state, with the restrictions of C30 (`OkAct`): the loop is started only while no publisher
holds an unpublished sequence, and fewer than 2^31 events are published. -/
structure Run (k : Nat) (σ : Nat → St D) (α : Nat → Option (Act D)) : Prop where
  hk : k ≤ 30
  start : Reach k (fun _ _ => True) (σ 0)
  exec : Exec (step k) σ α
  ok : ∀ i a, α i = some a → OkAct (σ i) a

/-- A step of the thread of the loop. -/
def LoopTurn (a : Act D) : Prop := a = .look ∨ a = .scan ∨ a = .advance ∨ a = .finish ∨ a = .throw

/-- The loop runs at time `i`, is not stopped from then on, and its thread gets its turn again and again (listeners come to an end). -/
structure LoopAlive (σ : Nat → St D) (α : Nat → Option (Act D)) (i : Nat) : Prop where
  running : (σ i).ring.cp 0 ≠ .idle
  stays : ∀ j, i ≤ j → α j ≠ some .stop
  fair : FairTo (fun s : St D => s.ring.cp 0 ≠ .idle) LoopTurn σ α

/-- A step of publishing thread `p` inside `publish`, other than a spurious failure of the compare-and-set. -/
def PubTurn (p : Nat) (a : Act D) : Prop := a = .claim p ∨ a = .write p ∨ a = .publish p

/-- Thread `p` gets its turn again and again while it is in `publish`, and the compare-and-set of `try_next` fails spuriously only
finitely often in this thread. -/
structure PubFair (σ : Nat → St D) (α : Nat → Option (Act D)) (p : Nat) : Prop where
  turn : FairTo (fun s : St D => s.pc p ≠ .idle) (PubTurn p) σ α
  weak : ∃ n0, ∀ n, n0 ≤ n → α n ≠ some (.weak p)

end Verif.EvLoop
