import Verif.Spec.Fair
import Verif.Model.EventLoop
import Verif.Spec.CqLive
import Verif.Spec.ElSchedLive

/-! A thread that is never stuck, for C90. -/

namespace Verif.Fair

/-- Some step of the thread (`own`) that the users' obligations (`ok`) do not rule out is possible in state `s`, whatever the other threads do. -/
def CanMove {S A : Type} (step : S → A → Option S) (ok : S → A → Prop) (own : A → Prop) (s : S) : Prop :=
  ∃ a, own a ∧ ok s a ∧ (step s a).isSome = true

end Verif.Fair

namespace Verif.EvLoop

/-- The threads of an event loop that are still trying to claim a sequence are in a list, and there is room for all of them below the limit of C24 (2^31 events). -/
def Below {D : Type} (s : St D) : Prop := ∃ L : List Nat, (∀ p t d, s.pc p = .claiming t d → p ∈ L) ∧ s.ring.cursor + L.length + 1 < 2 ^ 31

end Verif.EvLoop

namespace Verif.CqP

/-- One publisher at a time: what C63 asks of the users. -/
def Alone {T : Type} (s : St T) : Prop := ∀ t u x y, s.Trying t x → s.Trying u y → t = u

end Verif.CqP

namespace Verif.ElS

/-- The scheduler is in use, and the thread of the loop is not waiting for the end of a task in a `stopScheduledTask` called by what it runs.  (That this wait ends: C86_stop_returns.) -/
def NotWaiting {D κ : Type} (s : St D κ) : Prop := s.sch.terminated = false ∧ (s.sch.ctl = .idle ∨ s.byLoop = false)

end Verif.ElS
