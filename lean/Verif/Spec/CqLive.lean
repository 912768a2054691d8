import Verif.Spec.Fair
import Verif.Model.CqPoller

/-! Infinite executions of the middleware on the concurrent queue, and what is asked of the scheduler and of the external queue. -/

namespace Verif.CqP
open Verif Verif.Fair

variable {T : Type}

/-- An infinite execution from a reachable state in which never two threads are about to enqueue with the one producer token. -/
structure Run (d : Bool) (σ : Nat → St T) (α : Nat → Option (Act T)) : Prop where
  start : Reach d (σ 0)
  exec : Exec (step d) σ α
  calm : ∀ i, ¬ (σ i).cq.TokenRace

/-- A step of the poller: it asks the queue, or it calls the listeners. -/
def PollTurn : Act T → Prop
  | .cq (.poll _) | .cq .emit => True
  | _ => False

/-- The poller runs at time `i`, no listener throws from then on, its thread gets its turn again and again, and the queue is honest with it: if it
is never empty from some time on and the poller goes on asking, it does not always appear empty. -/
structure PollAlive (σ : Nat → St T) (α : Nat → Option (Act T)) (i : Nat) : Prop where
  running : (σ i).alive = true
  calm : ∀ j, i ≤ j → α j ≠ some .throw
  fair : FairTo (fun s : St T => s.alive = true) PollTurn σ α
  honest : ∀ k, (∀ j, k ≤ j → (σ j).cq.q ≠ []) → (∀ l, k ≤ l → ∃ j, l ≤ j ∧ ∃ b, α j = some (.cq (.poll b))) →
    ∃ j, k ≤ j ∧ α j = some (.cq (.poll true))

/-- Thread `t` is inside `publish(x)`, before its event is accepted. -/
def St.Trying (s : St T) (t : Nat) (x : T) : Prop := ∃ d, s.cq.pc t = .enq x d ∨ s.cq.pc t = .rem x d

/-- A step of thread `t` in the loop of `publish`. -/
def TryTurn (t : Nat) : Act T → Prop
  | .cq (.enq u _) | .cq (.rem u _) => u = t
  | _ => False

/-- Thread `t` gets its turn again and again while it is in the loop of `publish`; the queue accepts one day if it stays empty and `t` goes on
trying; and it does not always appear empty to `t` if it never is. -/
structure TryFair (t : Nat) (σ : Nat → St T) (α : Nat → Option (Act T)) : Prop where
  fair : FairTo (fun s : St T => ∃ x, s.Trying t x) (TryTurn t) σ α
  accepts : ∀ k, (∀ j, k ≤ j → (σ j).cq.q = []) → (∀ l, k ≤ l → ∃ j, l ≤ j ∧ ∃ b, α j = some (.cq (.enq t b))) →
    ∃ j, k ≤ j ∧ α j = some (.cq (.enq t true))
  honest : ∀ k, (∀ j, k ≤ j → (σ j).cq.q ≠ []) → (∀ l, k ≤ l → ∃ j, l ≤ j ∧ ∃ b, α j = some (.cq (.rem t b))) →
    ∃ j, k ≤ j ∧ α j = some (.cq (.rem t true))

end Verif.CqP
