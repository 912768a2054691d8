import Verif.Basic

/-!
Model of `kpsr::UnsafeMultiListenerEventEmitter` (CORE/unsafe_multi_listener_event_emitter.h).

The class is not synchronised, so histories of calls of one thread are considered.  Unordered maps are modelled as a function
(`_subscriberNameMap`) where only lookups matter, and as association lists (`_listenersNameMap`, `_listenerStats`)
otherwise.  The searches by value in `removeListener` (133-139 and 149-163) visit the maps in an
unspecified order and stop at the first hit; the model removes the hit wherever it is, which is the same because there is
never more than one (`MultiEE.Inv.inj`, `MultiEE.Inv.subs`).  A subscriber without entry and one with an empty vector
behave the same.  `once` throws always (117-122) and is left out.
-/

namespace Verif.MultiEE

structure St (κ β : Type) where
  /-- `_listenersNameMap` : listener name to id -/
  names : List (κ × Nat)
  /-- `_subscriberNameMap` : subscriber (event) name to listener ids -/
  subs : κ → List Nat
  /-- `_listenerStats` : id to `totalDiscardedEvents` -/
  stats : List (Nat × Nat)
  /-- `_listeners` : callbacks, `none` for `nullptr` -/
  fns : List (Option β)

def St.init {κ β : Type} : St κ β := ⟨[], fun _ => [], [], []⟩

variable {κ β ε : Type} [DecidableEq κ]

/-- `unordered_map::operator[] =` -/
def setStat (l : List (Nat × Nat)) (id v : Nat) : List (Nat × Nat) := (id, v) :: l.filter (fun p => p.1 ≠ id)

/-- `on` (61-109); `c` tells whether a container is given. -/
def on (s : St κ β) (c : Bool) (lname sub : κ) (cb : β) : St κ β × Nat :=
  match s.names.find? (fun p => p.1 = lname) with
  -- "was already added" (70-72)
  | some p => (s, p.2)
  | none =>
    let id := s.fns.length
    (⟨s.names ++ [(lname, id)], upd s.subs sub (s.subs sub ++ [id]),
      if c then setStat s.stats id 0 else s.stats, s.fns ++ [some cb]⟩, id)

/-- `removeListener` (128-168). -/
def remove (s : St κ β) (c : Bool) (id : Nat) : St κ β :=
  if id < s.fns.length then
    ⟨s.names.filter (fun p => p.2 ≠ id),
      fun k => (s.subs k).erase id,
      -- only if a name was found (141) and a container is given (143)
      if c && s.names.any (fun p => p.2 == id) then s.stats.filter (fun p => p.1 ≠ id) else s.stats,
      s.fns.set id none⟩
  else s

/-- `removeAllListeners` (170-181): the statistics map is not cleared. -/
def removeAll (s : St κ β) : St κ β := ⟨[], fun _ => [], s.stats, []⟩

/-- Calls of the callbacks in `ids` (195-197); `none` : a null function is called (`std::bad_function_call`) or the
vector is accessed out of range. -/
def callAll (s : St κ β) (e : ε) : List Nat → Option (List (Nat × β × ε))
  | [] => some []
  | id :: l =>
    match s.fns[id]? with
    | some (some cb) =>
      match callAll s e l with
      | none => none
      | some r => some ((id, cb, e) :: r)
    | _ => none

/-- `emitEvent` (189-198). -/
def emit (s : St κ β) (sub : κ) (e : ε) : Option (List (Nat × β × ε)) := callAll s e (s.subs sub)

/-- `discardEvent` (205-221). -/
def discard (s : St κ β) (sub : κ) : St κ β :=
  { s with stats := s.stats.map fun p => if p.1 ∈ s.subs sub then (p.1, p.2 + 1) else p }

/-- Result of `getListenerStats`. -/
inductive Stats where
  | null
  /-- `std::out_of_range` of `unordered_map::at` -/
  | outOfRange
  | some (v : Nat)
  deriving DecidableEq, Repr

/-- `getListenerStats` (228-234). -/
def getStats (s : St κ β) (id : Nat) : Stats :=
  if s.stats.length ≤ id then .null
  else match s.stats.lookup id with
    | none => .outOfRange
    | some v => .some v

inductive Op (κ β ε : Type) where
  | on (c : Bool) (lname sub : κ) (cb : β)
  | remove (c : Bool) (id : Nat)
  | removeAll
  | emit (sub : κ) (e : ε)
  | discard (sub : κ)

inductive Res (β ε : Type) where
  | id (n : Nat)
  | done
  | calls (l : List (Nat × β × ε))
  /-- a null callback was called -/
  | crash
  deriving DecidableEq, Repr

def apply (s : St κ β) : Op κ β ε → St κ β × Res β ε
  | .on c l n cb => let r := on s c l n cb; (r.1, .id r.2)
  | .remove c id => (remove s c id, .done)
  | .removeAll => (removeAll s, .done)
  | .emit n e => match emit s n e with
    | none => (s, .crash)
    | some l => (s, .calls l)
  | .discard n => (discard s n, .done)

def runOps (s : St κ β) : List (Op κ β ε) → St κ β × List (Res β ε)
  | [] => (s, [])
  | o :: os => let r := apply s o; let q := runOps r.1 os; (q.1, r.2 :: q.2)

end Verif.MultiEE
