import Verif.Model.BasicMiddleware
import Verif.Spec.SafeQueue

/-! Vocabulary for C13. -/

namespace Verif.BM
open Verif.SQ

variable {α : Type}

/-- Events for which `publish` was called, in order. -/
def published : List (Act α) → List α
  | [] => []
  | .publish _ x _ :: l => x :: published l
  | _ :: l => published l

/-- Sum of the discard counts that threads still have to add to the statistics. -/
def pending (s : St α) : Nat := (s.pend.map (·.2)).sum

end Verif.BM
