import Verif.Model.LockFreeStack

/-!
Specification for C01/C02: one atomic LIFO stack of bounded capacity shared by threads.
A call begins (`inv`), takes effect at one instant in between (silent), and returns (`ret`).
Only the types of calls, results and observable events are taken from the model.
-/

namespace Verif.LFS

/-- What a thread is doing: nothing, inside a call that has not taken effect, or inside a call that has
taken effect with a result not yet returned. -/
inductive Status (α : Type) where
  | idle
  | called (c : Call α)
  | done (c : Call α) (r : Res α)

/-- An element is in transit in such a thread: it is being pushed and not in the stack yet, or it
was popped and not returned yet. -/
def Status.inTransit {α : Type} : Status α → Prop
  | .called (.push _) => True
  | .done .pop (.popped (some _)) => True
  | _ => False

/-- The abstract stack (top first) and the threads. -/
structure Abs (α : Type) where
  l : List α
  st : Nat → Status α

/-- Steps of the atomic stack of capacity `cap`. -/
inductive SpecStep {α : Type} (cap : Nat) : Abs α → List (Obs α) → Abs α → Prop
  | inv (a : Abs α) (t : Nat) (c : Call α) (h : a.st t = .idle) :
      SpecStep cap a [.inv t c] { a with st := upd a.st t (.called c) }
  /-- a successful push puts the element on top; there was room -/
  | push (a : Abs α) (t : Nat) (x : α) (h : a.st t = .called (.push x)) (hc : a.l.length < cap) :
      SpecStep cap a [] ⟨x :: a.l, upd a.st t (.done (.push x) (.pushed true))⟩
  /-- a push is refused only if stored elements and elements in transit in other threads use up
  the capacity -/
  | pushFull (a : Abs α) (t : Nat) (x : α) (ts : List Nat) (h : a.st t = .called (.push x))
      (hn : ts.Nodup) (ht : t ∉ ts) (hts : ∀ u ∈ ts, (a.st u).inTransit)
      (hc : cap ≤ a.l.length + ts.length) :
      SpecStep cap a [] { a with st := upd a.st t (.done (.push x) (.pushed false)) }
  /-- a successful pop takes the top element -/
  | pop (a : Abs α) (t : Nat) (v : α) (l' : List α) (h : a.st t = .called .pop)
      (hl : a.l = v :: l') :
      SpecStep cap a [] ⟨l', upd a.st t (.done .pop (.popped (some v)))⟩
  /-- a pop reports "empty" only if the stack is empty -/
  | popEmpty (a : Abs α) (t : Nat) (h : a.st t = .called .pop) (hl : a.l = []) :
      SpecStep cap a [] { a with st := upd a.st t (.done .pop (.popped none)) }
  /-- the call returns the result it had when it took effect -/
  | ret (a : Abs α) (t : Nat) (c : Call α) (r : Res α) (h : a.st t = .done c r) :
      SpecStep cap a [.ret t c r] { a with st := upd a.st t .idle }

/-- Executions of the atomic stack with their observable history. -/
inductive SpecRun {α : Type} (cap : Nat) : Abs α → List (Obs α) → Abs α → Prop
  | nil (a : Abs α) : SpecRun cap a [] a
  | cons {a a' a'' : Abs α} {o h : List (Obs α)} (h1 : SpecStep cap a o a')
      (h2 : SpecRun cap a' h a'') : SpecRun cap a (o ++ h) a''

/-- The abstract stack right after construction: `cap` elements, cell 0 on top, no call in progress. -/
def Abs.initial {α : Type} (cap : Nat) (d : Nat → α) : Abs α :=
  ⟨(List.range cap).map d, fun _ => .idle⟩

end Verif.LFS

namespace Verif.LFS

/-- A history without overlap: every call returns before the next one begins. -/
def seqHist {α : Type} : List (Nat × Call α × Res α) → List (Obs α)
  | [] => []
  | (t, c, r) :: rest => .inv t c :: .ret t c r :: seqHist rest

/-- The results a sequential bounded stack with content `l` (top first) gives. -/
def Replay {α : Type} (cap : Nat) : List α → List (Nat × Call α × Res α) → Prop
  | _, [] => True
  | l, (_, .push x, r) :: rest =>
    (l.length < cap ∧ r = .pushed true ∧ Replay cap (x :: l) rest) ∨
    (cap ≤ l.length ∧ r = .pushed false ∧ Replay cap l rest)
  | [], (_, .pop, r) :: rest => r = .popped none ∧ Replay cap [] rest
  | v :: l, (_, .pop, r) :: rest => r = .popped (some v) ∧ Replay cap l rest

end Verif.LFS
