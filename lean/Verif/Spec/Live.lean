import Verif.Spec.Fair
import Verif.Lemmas.Chain

/-! Infinite executions of the ring with dependent processors. -/

namespace Verif.Chain
open Verif Verif.Disr Verif.Fair

variable {V : Type}

/-- A step of processor `p` in `run`: looking at the sequences it waits for, going on with the batch, a handler that returns or throws. -/
def Turn (p : Nat) (a : Act V) : Prop := a = .look p ∨ a = .advance p ∨ a = .finish p ∨ a = .throw p

/-- An infinite execution from a reachable state in which all processors are registered before the first event is claimed. -/
structure Run (cfg : Cfg) (v : V) (σ : Nat → St V) (α : Nat → Option (Act V)) : Prop where
  hk : cfg.k ≤ 30
  start : Reach cfg v (σ 0)
  exec : Exec (step cfg) σ α
  late : ∀ i, (σ i).late = false

/-- Processor `p` stays in `run` from time `i` on and gets its turn again and again. -/
structure Alive (σ : Nat → St V) (α : Nat → Option (Act V)) (p : Nat) (i : Nat) : Prop where
  running : (σ i).cp p ≠ .idle
  stays : ∀ j, i ≤ j → α j ≠ some (.leave p)
  fair : FairTo (fun s : St V => s.cp p ≠ .idle) (Turn p) σ α

end Verif.Chain
