import Verif.Model.SafeQueue

/-! Vocabulary for the `SafeQueue` properties. -/

namespace Verif.SQ

variable {α : Type}

/-- Items put into the queue by this event. -/
def Ev.ins : Ev α → List α
  | .pushed _ x => [x]
  | .tryPushed _ x true => [x]
  | .forced _ x _ => [x]
  | _ => []

/-- Items taken out of the queue by this event. -/
def Ev.outs : Ev α → List α
  | .discarded x => [x]
  | .popped _ x => [x]
  | _ => []

/-- All items put into the queue, in order. -/
def putIn (log : List (Ev α)) : List α := log.flatMap Ev.ins
/-- All items taken out of the queue (returned by a pop or discarded by `force_move_push`), in order. -/
def takenOut (log : List (Ev α)) : List α := log.flatMap Ev.outs

/-- A woken consumer that will take an item if there is one. -/
def willTake : Cons × Why → Bool
  | (c, w) => !(c.timed && w == .expired)

/-- Restriction on schedules: the bound is not changed and no notified `timeout_pop` reports a timeout. -/
def NoLate : Act α → Prop
  | .setMax _ => False
  | .resumeNE _ late _ => late = false
  | _ => True

/-- Restriction on schedules: the pop family is called by thread `c` only and no waiting consumer wakes spuriously. -/
def OnlyCons (c : Nat) : Act α → Prop
  | .call t .pop _ => t = c
  | .call t .tryPop _ => t = c
  | .call t (.timedPop _) _ => t = c
  | .spuriousNE _ => False
  | _ => True

/-- Restriction on schedules: only `push` calls (with any waking) try to put items in. -/
def OnlyBlockingPush : Act α → Prop
  | .call _ (.tryPush _) _ => False
  | .call _ (.forcePush _) _ => False
  | .setMax _ => False
  | _ => True

end Verif.SQ
