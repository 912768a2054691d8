import Verif.Spec.MemDispatch
import Verif.Spec.MemLive
import Verif.Spec.CqLive

/-! Infinite executions of an in-memory middleware with its listeners, for C81. -/

namespace Verif.MemD
open Verif ElD Verif.Fair

variable {D : Type}

/-- An infinite execution from a reachable state, used as required. -/
structure Run (C : Chan D) (n : String) (c : Bool) (kind : Kind) (σ : Nat → St C) (α : Nat → Option (Act C)) : Prop where
  start : Reach n c kind (σ 0)
  exec : Exec (step n c) σ α
  ok : ∀ i a, α i = some a → Ok (σ i) a
  may : ∀ i, C.may (σ i).ch

/-- A step of the polling thread in the queue. -/
def Mdlw.polls : (m : Mdlw) → (m.chan D).Act → Prop
  | .basic .., a => MemP.PollTurn (a : MemP.Act D)
  | .concurrent _, a => CqP.PollTurn (a : CqP.Act D)

/-- A step of the polling thread. -/
def Mdlw.turn (m : Mdlw) : Act (m.chan D) → Prop
  | .ch a => m.polls a
  | .take | .call _ | .fin => True
  | _ => False

/-- The queue is honest with the poller: if it is never empty from some time on and the poller goes on asking, it does not always appear empty.  Only the external
queue of the concurrent middleware needs it. -/
def Mdlw.honest : (m : Mdlw) → (Nat → St (m.chan D)) → (Nat → Option (Act (m.chan D))) → Prop
  | .basic .., _, _ => True
  | .concurrent _, σ, α => ∀ k, (∀ j, k ≤ j → (CqP.St.cq (σ j).ch).q ≠ []) → (∀ l, k ≤ l → ∃ j, l ≤ j ∧ ∃ b, α j = some (.ch (.cq (.poll b) : CqP.Act D))) →
    ∃ j, k ≤ j ∧ α j = some (.ch (.cq (.poll true) : CqP.Act D))

/-- The poller runs at time `i`, no listener throws from then on, its thread gets its turn again and again, and the queue is honest. -/
structure PollAlive (m : Mdlw) (σ : Nat → St (m.chan D)) (α : Nat → Option (Act (m.chan D))) (i : Nat) : Prop where
  running : (m.chan D).alive (σ i).ch = true
  calm : ∀ j, i ≤ j → α j ≠ some (.call false)
  fair : FairTo (fun s : St (m.chan D) => (m.chan D).alive s.ch = true) m.turn σ α
  honest : m.honest σ α

end Verif.MemD
