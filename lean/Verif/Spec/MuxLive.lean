import Verif.Spec.Fair
import Verif.Lemmas.DataMux

/-! Infinite executions of the data multiplexer. -/

namespace Verif.Mux
open Verif Verif.Disr Verif.Fair

variable {T : Type}

/-- A step of the thread of subscriber `c` in `run`: looking at the ring, going on with the batch, a listener that returns or throws. -/
def Turn (c : Nat) (a : Act T) : Prop := a = .look c ∨ a = .advance c ∨ a = .finish c ∨ a = .throw c

/-- A step of the publishing thread inside a call. -/
def PubTurn (a : Act T) : Prop := a = .scan ∨ a = .write ∨ (∃ g, a = .writeThrows g) ∨ a = .publish

/-- An infinite execution from a reachable state; subscribers are created as in C28. -/
structure Run (shared : Bool) (k : Nat) (v : T) (σ : Nat → St T) (α : Nat → Option (Act T)) : Prop where
  hk : k ≤ 30
  start : Reach shared k (fun _ => True) v (σ 0)
  exec : Exec (step shared k) σ α
  ok : ∀ i a, α i = some a → OkAct (σ i) a

/-- Subscriber `c` exists, its thread is in `run` and gets its turn again and again, and it is not destroyed from time `i` on. -/
structure Alive (σ : Nat → St T) (α : Nat → Option (Act T)) (c : Nat) (i : Nat) : Prop where
  member : c ∈ (σ i).ring.gating
  running : (σ i).ring.cp c ≠ .idle
  stays : ∀ j, i ≤ j → α j ≠ some (.leave c)
  fair : FairTo (fun s : St T => s.ring.cp c ≠ .idle) (Turn c) σ α

/-- The publishing thread, once in a call, gets its turn again and again. -/
def PubFair (σ : Nat → St T) (α : Nat → Option (Act T)) : Prop := FairTo (fun s : St T => (s.pc matches .idle) = false) PubTurn σ α

end Verif.Mux
