/-!
What a shared environment should make of the messages it is sent (C95).  A message is a list of frames; an update has two: topic and content.
-/

namespace Verif.ZEP

/-- A decoded update. -/
structure Upd (K D : Type) where
  key : K
  source : Nat
  data : D

/-- The content of the environment `e` with key `key` and id `me` after the contents `cs` have been received: those that are updates for the key and
were sent by someone else are adopted in turn, everything else is ignored. -/
def expected {F E K D : Type} [DecidableEq K] (decode : F → Option (Upd K D)) (adopt : E → D → E) (key : K) (me : Nat) : E → List F → E
  | e, [] => e
  | e, c :: cs => match decode c with
    | some u => expected decode adopt key me (if u.key = key ∧ u.source ≠ me then adopt e u.data else e) cs
    | none => expected decode adopt key me e cs

/-- The frames of two-part messages, in order. -/
def frames {F : Type} (ms : List (F × F)) : List F := ms.flatMap fun m => [m.1, m.2]

end Verif.ZEP
