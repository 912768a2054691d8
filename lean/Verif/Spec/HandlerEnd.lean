/-!
What an observer sees of a callback handler that is destroyed while replies are delivered (C92).  Deliveries of a reply to the listeners of the topic are
numbered in the order in which they begin.
-/

namespace Verif.HandlerEnd

inductive Ev where
  /-- delivery `e` begins: `emitEvent` collects the listeners -/
  | start (e : Nat)
  /-- delivery `e` runs the handler -/
  | enter (e : Nat)
  /-- and is done with it -/
  | leave (e : Nat)
  /-- the destructor removed the listener -/
  | removed
  /-- the destructor has finished, the memory is released -/
  | freed
  deriving DecidableEq, Repr

/-- `a` happened before `b` in the history `h` (newest event first). -/
def Before (h : List Ev) (a b : Ev) : Prop := ∃ h1 h2, h = h1 ++ b :: h2 ∧ a ∈ h2

end Verif.HandlerEnd
