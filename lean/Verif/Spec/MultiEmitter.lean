import Verif.Model.MultiEmitter

/-! Specification of the multi-listener emitter: a registry of named listeners in registration order. -/

namespace Verif.MultiSpec
open Verif.MultiEE

structure Entry (κ β : Type) where
  id : Nat
  lname : κ
  sub : κ
  cb : β
  deriving DecidableEq, Repr

/-- `next` is the id of the next new listener; it starts again at 0 after `removeAllListeners`. -/
structure Reg (κ β : Type) where
  next : Nat
  live : List (Entry κ β)
  deriving DecidableEq, Repr

def Reg.init {κ β : Type} : Reg κ β := ⟨0, []⟩

variable {κ β ε : Type} [DecidableEq κ]

def apply (r : Reg κ β) : Op κ β ε → Reg κ β × Res β ε
  | .on _ l n cb =>
    match r.live.find? (fun x => x.lname = l) with
    | some x => (r, .id x.id)
    | none => (⟨r.next + 1, r.live ++ [⟨r.next, l, n, cb⟩]⟩, .id r.next)
  | .remove _ id => ({ r with live := r.live.filter (fun x => x.id ≠ id) }, .done)
  | .removeAll => (Reg.init, .done)
  | .emit n e => (r, .calls ((r.live.filter (fun x => x.sub = n)).map (fun x => (x.id, x.cb, e))))
  | .discard _ => (r, .done)

def runOps (r : Reg κ β) : List (Op κ β ε) → Reg κ β × List (Res β ε)
  | [] => (r, [])
  | o :: os => let a := apply r o; let q := runOps a.1 os; (q.1, a.2 :: q.2)

end Verif.MultiSpec
