import Verif.Model.SafeEmitter

/-!
Specification of an event emitter: a registry of listeners in registration order.  Nothing here refers to the data
structures of the implementation; `Op` and `Res` are the method calls and their results.
-/

namespace Verif.EmitterSpec
open Verif.SafeEE

/-- A registered listener. -/
structure Entry (κ β : Type) where
  id : Nat
  name : κ
  isOnce : Bool
  cb : β
  deriving DecidableEq, Repr

/-- Registry: number of registrations so far, and the live listeners in registration order. -/
structure Reg (κ β : Type) where
  count : Nat
  live : List (Entry κ β)
  deriving DecidableEq, Repr

def Reg.init {κ β : Type} : Reg κ β := ⟨0, []⟩

variable {κ β ε : Type} [DecidableEq κ]

/-- The specification of each method. -/
def apply (r : Reg κ β) : Op κ β ε → Reg κ β × Res β ε
  | .on n cb => (⟨r.count + 1, r.live ++ [⟨r.count + 1, n, false, cb⟩]⟩, .id (r.count + 1))
  | .once n cb => (⟨r.count + 1, r.live ++ [⟨r.count + 1, n, true, cb⟩]⟩, .id (r.count + 1))
  | .remove id =>
    if ∃ x ∈ r.live, x.id = id then ({ r with live := r.live.filter (fun x => x.id ≠ id) }, .done)
    else (r, .invalid)
  | .removeAll => ({ r with live := [] }, .done)
  | .emit n e =>
    ({ r with live := r.live.filter (fun x => ¬ (x.name = n ∧ x.isOnce)) },
      .calls ((r.live.filter (fun x => x.name = n)).map (fun x => (x.id, x.cb, e))) false)
  | .discard _ => (r, .done)

def runOps (r : Reg κ β) : List (Op κ β ε) → Reg κ β × List (Res β ε)
  | [] => (r, [])
  | o :: os => let a := apply r o; let q := runOps a.1 os; (q.1, a.2 :: q.2)

/-- Number of registrations in a history. -/
def registrations : List (Op κ β ε) → Nat
  | [] => 0
  | .on _ _ :: os => registrations os + 1
  | .once _ _ :: os => registrations os + 1
  | _ :: os => registrations os

/-- Calls made by emission `k` in a log of an interleaved execution, in order. -/
def callsOf (k : Nat) : List (CEv β ε) → List (Nat × β × ε)
  | [] => []
  | .called j id cb e :: l => if j = k then (id, cb, e) :: callsOf k l else callsOf k l
  | _ :: l => callsOf k l

/-- Ids returned in a list of results. -/
def retIds : List (Res β ε) → List Nat
  | [] => []
  | .id n :: l => n :: retIds l
  | _ :: l => retIds l

/-- Number of calls of listener `id` in a list of results. -/
def callCount (id : Nat) : List (Res β ε) → Nat
  | [] => 0
  | .calls l _ :: rs => l.countP (fun c => c.1 == id) + callCount id rs
  | _ :: rs => callCount id rs

end Verif.EmitterSpec
