import Verif.Model.Subscriber

/-! Specification of a subscriber: named callbacks in registration order. -/

namespace Verif.SubSpec
open Verif.Sub

variable {κ β ε : Type} [DecidableEq κ]

/-- Registering a name already in use keeps the old callback (`replace = false`, the behaviour of the multi-listener
emitter). -/
def apply (r : List (κ × β)) : Op κ β ε → List (κ × β) × Res β ε
  | .reg n cb => (if n ∈ r.map (·.1) then r else r ++ [(n, cb)], .done)
  | .rem n => (r.filter (fun x => x.1 ≠ n), .done)
  | .stats _ => (r, .done)
  | .emit e => (r, .calls (r.map (fun x => (x.2, e))))

def runOps (r : List (κ × β)) : List (Op κ β ε) → List (κ × β) × List (Res β ε)
  | [] => (r, [])
  | o :: os => let a := apply r o; let q := runOps a.1 os; (q.1, a.2 :: q.2)

/-- No statistics of an unknown name are asked for, and (if `fresh`) no name in use is registered again. -/
def Good (fresh : Bool) : List (κ × β) → List (Op κ β ε) → Prop
  | _, [] => True
  | r, o :: os =>
    (match o with
      | .reg n _ => fresh = true → n ∉ r.map (·.1)
      | .stats n => n ∈ r.map (·.1)
      | _ => True) ∧ Good fresh (apply r o).1 os

/-- Number of registrations. -/
def regs : List (Op κ β ε) → Nat
  | [] => 0
  | .reg _ _ :: os => regs os + 1
  | _ :: os => regs os

end Verif.SubSpec
