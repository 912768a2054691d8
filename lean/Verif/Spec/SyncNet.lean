/-!
Specification of a network of synchronous providers (C73), independent of pools, objects and emitters.

Node `n` of the network is one `EventEmitterMiddlewareProvider`; `net n` are its listeners in registration order.  A publication is
a pair of a node and a value.
-/

namespace Verif.SyncNet

/-- A listener as its author describes it: what it publishes when it is called with `v`, in order, and whether it throws after
that. -/
structure SLis (T : Type) where
  name : Nat
  out : T → List (Nat × T)
  fails : T → Bool

/-- What happens, in order of time. -/
inductive Ev (T : Type) where
  /-- `v` is published at `node`; `under` are the nodes of the publications that have not returned yet -/
  | pub (node : Nat) (v : T) (under : List Nat)
  /-- listener `name` of `node` is called with `v` -/
  | call (node name : Nat) (v : T)
  deriving DecidableEq, Repr

/-- The elements of a list one after the other; the first that throws ends it.  `none`: it does not return (within the depth
considered). -/
def inOrder {α ε : Type} (f : α → Option (List ε × Bool)) : List α → Option (List ε × Bool)
  | [] => some ([], false)
  | a :: as =>
    match f a with
    | none => none
    | some (es, true) => some (es, true)
    | some (es, false) => (inOrder f as).map (fun r => (es ++ r.1, r.2))

/-- The publications `ps`, one after the other, made while those of `under` are running: each one calls every listener of its
node once, in order, with the published value; what a listener publishes happens inside its call; an exception goes up through all
of them.  Result: what happened and whether it ended with an exception; `none` if there are publications nested deeper than
`depth`. -/
def trace {T : Type} (net : Nat → List (SLis T)) : (depth : Nat) → (under : List Nat) → (ps : List (Nat × T)) →
    Option (List (Ev T) × Bool)
  | 0, _, [] => some ([], false)
  | 0, _, _ :: _ => none
  | depth + 1, under, ps =>
    inOrder (fun p =>
      (inOrder (fun l =>
        (trace net depth (p.1 :: under) (l.out p.2)).map (fun r => (.call p.1 l.name p.2 :: r.1, r.2 || l.fails p.2)))
        (net p.1)).map (fun r => (.pub p.1 p.2 under :: r.1, r.2))) ps

/-- The calls of listeners. -/
def calls {T : Type} (es : List (Ev T)) : List (Nat × Nat × T) :=
  es.filterMap (fun e => match e with | .call n l v => some (n, l, v) | .pub _ _ _ => none)

/-- The publications at node `m` made while `free` or more publications at `m` had not returned yet. -/
def tooDeep {T : Type} (m free : Nat) (es : List (Ev T)) : Nat :=
  es.countP (fun e => match e with | .pub n _ under => decide (n = m ∧ free ≤ under.count m) | .call _ _ _ => false)

end Verif.SyncNet
