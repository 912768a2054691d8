import Verif.Spec.MuxDispatch
import Verif.Spec.MemDispatchLive
import Verif.Spec.MuxLive

/-! Infinite executions of a subscriber of the data multiplexer with its listeners, for C87: those of `MemD.Run`, over the channel of Model/MuxDispatch.lean. -/

namespace Verif.MuxD
open Verif Verif.Disr ElD MemD Verif.Fair

variable {T : Type} {shared : Bool} {k c : Nat} {s0 : Mux.St T}

/-- A step of the thread of subscriber `c`: it looks at the ring, goes on with its batch, skips an event, begins to emit one, gets back from a listener (by a return or by an
exception), or from `emitEvent`. -/
def Turn (c : Nat) : MemD.Act (chan shared k c s0) → Prop
  | .ch (.mux (.look d)) => d = c
  | .ch (.mux (.advance d)) => d = c
  | .ch .skip => True
  | .take | .call _ | .fin => True
  | _ => False

/-- The thread of the subscriber is in `run`, the subscriber is not destroyed from time `i` on, and its thread gets its turn again and again.  Listeners may throw. -/
structure Alive (σ : Nat → Sub shared k c s0) (α : Nat → Option (MemD.Act (chan shared k c s0))) (i : Nat) : Prop where
  running : (mux (σ i)).ring.cp c ≠ .idle
  stays : ∀ j, i ≤ j → α j ≠ some (.ch (.mux (.leave c)))
  fair : FairTo (fun s : Sub shared k c s0 => (mux s).ring.cp c ≠ .idle) (Turn c) σ α

end Verif.MuxD
