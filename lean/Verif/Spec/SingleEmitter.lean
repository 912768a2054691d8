import Verif.Model.SingleEmitter

/-! Specification of the single-listener emitter: at most one listener. -/

namespace Verif.SingleEE

variable {κ β ε : Type} [DecidableEq κ]

/-- The single listener, if any, with its event name. -/
def specApply (r : Option (κ × β)) : Op κ β ε → Option (κ × β) × Res β ε
  | .on _ n cb => (match r with | none => some (n, cb) | some x => some x, .id 0)
  | .remove _ id => (if id = 0 then none else r, .done)
  | .removeAll _ => (none, .done)
  | .emit n e => (r, .emitted (.calls (match r with
      | some (m, cb) => if m = n then [(cb, e)] else []
      | none => [])))
  | .discard _ => (r, .done)

def specRun (r : Option (κ × β)) : List (Op κ β ε) → Option (κ × β) × List (Res β ε)
  | [] => (r, [])
  | o :: os => let a := specApply r o; let q := specRun a.1 os; (q.1, a.2 :: q.2)

/-- The operation does not remove the listener. -/
def Keeps : Op κ β ε → Prop
  | .remove _ id => id ≠ 0
  | .removeAll _ => False
  | _ => True

/-- Discarded events of a name in a history. -/
def discards (n : κ) (os : List (Op κ β ε)) : Nat :=
  (os.filter (fun o => match o with | .discard m => decide (m = n) | _ => false)).length

end Verif.SingleEE
