import Verif.Basic

/-!
Memory with the orders of the C++ memory model that the code uses: atomic variables with release, acquire and relaxed accesses and
read-modify-write operations, and ordinary (non-atomic) variables.  No code of the repository is modelled here; the programs on this memory are
in Model/RaRing.lean and Model/RaWait.lean.

It is the usual operational presentation of release/acquire with views.  Every store to an atomic variable adds a message to the history of the
variable; a load may return any message that is not older than one the thread already knows of, so values may be stale; an acquire load of
a message stored with release order makes known everything the storing thread knew.  For ordinary variables a view counts the accesses that
happen before: an access is ordered after all conflicting ones if the thread's view counts all of them; if not, the access is a data race.
Simplifications: stores are appended to the history (exact for variables with one writer and for read-modify-write operations; for others the
modification order then agrees with the order of execution); loads do not read from stores executed later (no load buffering); there are no fences
and no sequentially consistent order (the code uses none of the first and only two operations of the second, both read-modify-write).
-/

namespace Verif.RA
open Verif

/-- What happens before: for each atomic variable the index of the newest message known, for each ordinary variable the number of its writes
and, for each thread, of its reads. -/
structure View where
  a : Nat → Nat
  w : Nat → Nat
  r : Nat → Nat → Nat

def View.join (u v : View) : View :=
  ⟨fun l => max (u.a l) (v.a l), fun x => max (u.w x) (v.w x), fun x t => max (u.r x t) (v.r x t)⟩

/-- Message `i` of variable `l` becomes known. -/
def View.see (u : View) (l i : Nat) : View := { u with a := upd u.a l (max (u.a l) i) }

/-- Nothing but the initialisation of all variables. -/
def View.start : View := ⟨fun _ => 0, fun _ => 1, fun _ _ => 0⟩

/-- A store to an atomic variable: its value and what an acquire load of it makes known. -/
structure Msg where
  val : Int
  view : View

structure Mem (V : Type) where
  /-- history of each atomic variable, oldest first -/
  msgs : Nat → List Msg
  /-- values written to each ordinary variable, newest first -/
  writes : Nat → List V
  /-- number of reads of an ordinary variable by a thread -/
  reads : Nat → Nat → Nat
  /-- the view of each thread -/
  view : Nat → View

/-- All atomic variables hold `a`, all others `v`; every thread knows the initialisation. -/
def Mem.init {V : Type} (a : Int) (v : V) : Mem V where
  msgs := fun _ => [⟨a, .start⟩]
  writes := fun _ => [v]
  reads := fun _ _ => 0
  view := fun _ => .start

variable {V : Type}

/-- Acquire load by thread `t`: message `i` of `l`. -/
def Mem.load (m : Mem V) (t l i : Nat) : Option (Int × Mem V) :=
  if (m.view t).a l ≤ i then
    match (m.msgs l)[i]? with
    | some g => some (g.val, { m with view := upd m.view t (((m.view t).join g.view).see l i) })
    | none => none
  else none

/-- Relaxed load. -/
def Mem.loadRlx (m : Mem V) (t l i : Nat) : Option (Int × Mem V) :=
  if (m.view t).a l ≤ i then
    match (m.msgs l)[i]? with
    | some g => some (g.val, { m with view := upd m.view t ((m.view t).see l i) })
    | none => none
  else none

/-- Release store. -/
def Mem.store (m : Mem V) (t l : Nat) (v : Int) : Mem V :=
  let u := (m.view t).see l (m.msgs l).length
  { m with msgs := upd m.msgs l (m.msgs l ++ [⟨v, u⟩]), view := upd m.view t u }

/-- Relaxed store. -/
def Mem.storeRlx (m : Mem V) (t l : Nat) (v : Int) : Mem V :=
  let u := (m.view t).see l (m.msgs l).length
  { m with msgs := upd m.msgs l (m.msgs l ++ [⟨v, View.start.see l (m.msgs l).length⟩]), view := upd m.view t u }

/-- The newest message. -/
def Mem.last (m : Mem V) (l : Nat) : Option Msg := (m.msgs l).getLast?

/-- Read-modify-write with acquire and release order: reads the newest message. -/
def Mem.rmw (m : Mem V) (t l : Nat) (f : Int → Int) : Option (Int × Mem V) :=
  match m.last l with
  | some g =>
    let u := ((m.view t).join g.view).see l (m.msgs l).length
    some (g.val, { m with msgs := upd m.msgs l (m.msgs l ++ [⟨f g.val, u⟩]), view := upd m.view t u })
  | none => none

/-- Read-modify-write with release order only: what it read is passed on with the new message (release sequence) but not acquired. -/
def Mem.rmwRel (m : Mem V) (t l : Nat) (f : Int → Int) : Option (Int × Mem V) :=
  match m.last l with
  | some g =>
    let u := (m.view t).see l (m.msgs l).length
    some (g.val, { m with msgs := upd m.msgs l (m.msgs l ++ [⟨f g.val, u.join g.view⟩]), view := upd m.view t u })
  | none => none

/-- Write to an ordinary variable. -/
def Mem.write (m : Mem V) (t x : Nat) (v : V) : Mem V :=
  { m with
    writes := upd m.writes x (v :: m.writes x)
    view := upd m.view t { m.view t with w := upd (m.view t).w x ((m.writes x).length + 1) } }

/-- Read of an ordinary variable: the newest value (the only possible one if the read is ordered). -/
def Mem.read (m : Mem V) (t x : Nat) : Option (V × Mem V) :=
  match m.writes x with
  | v :: _ => some (v, { m with
      reads := upd m.reads x (upd (m.reads x) t (m.reads x t + 1))
      view := upd m.view t { m.view t with r := upd (m.view t).r x (upd ((m.view t).r x) t (m.reads x t + 1)) } })
  | [] => none

/-- A write of `t` to `x` now would be ordered after every earlier access to `x`: no data race. -/
def Mem.WriteOrdered (m : Mem V) (t x : Nat) : Prop :=
  (m.writes x).length ≤ (m.view t).w x ∧ ∀ u, m.reads x u ≤ (m.view t).r x u

/-- A read of `t` from `x` now would be ordered after every earlier write of `x`. -/
def Mem.ReadOrdered (m : Mem V) (t x : Nat) : Prop := (m.writes x).length ≤ (m.view t).w x

end Verif.RA
