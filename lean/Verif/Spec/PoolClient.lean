import Verif.Spec.AtomicStack

/-!
Specification for C04/C05 (concurrent part): what the clients of a pool see.  Objects are identified by their
number.  `pop` returning `o` hands the object out, the call `push o` gives it back.
-/

namespace Verif.LFS

/-- Objects handed out and not given back, after one more observable event. -/
def outAfter (out : List Nat) : Obs Nat → List Nat
  | .inv _ (.push o) => out.erase o
  | .ret _ _ (.popped (some o)) => o :: out
  | _ => out

/-- The clients only give back objects they were handed out before. -/
def GivesBackOnly : List Nat → List (Obs Nat) → Prop
  | _, [] => True
  | out, e :: h => (∀ t o, e = .inv t (.push o) → o ∈ out) ∧ GivesBackOnly (outAfter out e) h

/-- No object is handed out while it is out, all objects handed out are among the `n` objects of the
pool, and no give-back is refused. -/
def Exclusive (n : Nat) : List Nat → List (Obs Nat) → Prop
  | _, [] => True
  | out, e :: h =>
    (∀ t c o, e = .ret t c (.popped (some o)) → o ∉ out ∧ o < n) ∧
    (∀ t c, e ≠ .ret t c (.pushed false)) ∧ Exclusive n (outAfter out e) h

end Verif.LFS
