import Verif.Model.Memory
import Verif.Model.Sequencer

/-!
The ring with a single producer (D4/single_producer_sequencer.h, ring_buffer.h, sequence.h, sequence_barrier.h, batch_event_processor.h) on the
memory of Model/Memory.lean: `sequence::get` is an acquire load and `sequence::set` a release store (sequence.h 71, 73), the slots of the ring are
ordinary variables.  Atomic variable 0 is `cursor_`, variable `c + 1` the `sequence_` of processor `c`.  Thread 0 is the producer, thread `c + 1`
runs processor `c`.  The gating processors `G` are registered before the threads start.  Waiting and halting are in Model/RaWait.lean and
Model/Processor.lean.
-/

namespace Verif.RaRing
open Verif Verif.Disr Verif.RA

/-- Program counter of the producer. -/
inductive PPc where
  | idle
  /-- in `get_minimum_sequence` (util.h) called from `next(n)` 159-160 or `has_available_capacity` 137: sequences still to read, minimum so far -/
  | scan (n : Int) (rest : List Nat) (m : Int)
  deriving DecidableEq, Repr

/-- Program counter of a processor (batch_event_processor.h 112-155). -/
inductive CPc where
  /-- `wait_for(nx)` -/
  | wait (nx : Int)
  /-- head of the loop over the batch -/
  | batch (nx av : Int)
  /-- in `on_event` of `nx` -/
  | handle (nx av : Int)
  deriving DecidableEq, Repr

structure St (V : Type) where
  mem : Mem V
  /-- `next_value_` (private to the producer) -/
  nextVal : Int
  /-- `cached_value_` (private to the producer) -/
  cached : Int
  /-- history: the last sequence published -/
  cur : Int
  pp : PPc
  cp : Nat → CPc
  /-- history: the last value the producer wrote to the slot of a sequence while it owned it -/
  val : Int → Option V
  /-- history: what each processor read: sequence and value, newest first -/
  log : Nat → List (Int × V)

/-- A new ring (84-89); every slot holds `v`. -/
def St.init {V : Type} (v : V) : St V where
  mem := .init (-1) v
  nextVal := -1
  cached := -1
  cur := -1
  pp := .idle
  cp := fun _ => .wait 0
  val := fun _ => none
  log := fun _ => []

inductive Act (V : Type) where
  /-- `next(n)` or `try_next(n)` -/
  | call (n : Int)
  /-- the producer reads message `i` of the next gating sequence -/
  | scan (i : Nat)
  /-- the minimum is known: claim, or try again (`next`) or give up (`try_next`) -/
  | decide (again : Bool)
  /-- the producer writes to the slot of a claimed sequence -/
  | write (x : Int) (v : V)
  | publish (x : Int)
  /-- processor `c` reads message `i` of the cursor -/
  | look (c i : Nat)
  /-- it calls `on_event` or, at the end of the batch, sets its sequence -/
  | advance (c : Nat)
  /-- the handler reads the slot -/
  | read (c : Nat)
  /-- the handler returns -/
  | finish (c : Nat)
  /-- the handler throws a `std::exception` -/
  | throw (c : Nat)

variable {V : Type}

/-- One step: one access to memory. -/
def step (k : Nat) (G : List Nat) (s : St V) : Act V → Option (St V)
  | .call n =>
    if s.pp = .idle ∧ 1 ≤ n then
      -- 133-136, 151-157
      if s.nextVal + n - 2 ^ k > s.cached ∨ s.cached > s.nextVal then some { s with pp := .scan n G s.nextVal }
      else some { s with nextVal := s.nextVal + n }
    else none
  | .scan i =>
    match s.pp with
    | .scan n (c :: rest) m =>
      match s.mem.load 0 (c + 1) i with
      | some (q, mem) => some { s with mem := mem, pp := .scan n rest (if q < m then q else m) }
      | none => none
    | _ => none
  | .decide again =>
    match s.pp with
    | .scan n [] m =>
      if s.nextVal + n - 2 ^ k > m then
        -- 159-162: next tries again; 138-140, 175: try_next stores the minimum and throws
        if again then some { s with pp := .scan n G s.nextVal } else some { s with cached := m, pp := .idle }
      else some { s with cached := m, nextVal := s.nextVal + n, pp := .idle }
    | _ => none
  | .write x v =>
    if s.cur < x ∧ x ≤ s.nextVal then
      some { s with mem := s.mem.write 0 (slotIdx k x) v, val := upd s.val x (some v) }
    else none
  | .publish x =>
    -- 192-195
    if s.cur < x ∧ x ≤ s.nextVal then some { s with mem := s.mem.store 0 0 x, cur := x } else none
  | .look c i =>
    match s.cp c with
    | .wait nx =>
      if c ∈ G then
        match s.mem.load (c + 1) 0 i with
        | some (av, mem) =>
          if av < nx then some { s with mem := mem } else some { s with mem := mem, cp := upd s.cp c (.batch nx av) }
        | none => none
      else none
    | _ => none
  | .advance c =>
    match s.cp c with
    | .batch nx av =>
      if nx ≤ av then some { s with cp := upd s.cp c (.handle nx av) }
      else some { s with mem := s.mem.store (c + 1) (c + 1) av, cp := upd s.cp c (.wait nx) }
    | _ => none
  | .read c =>
    match s.cp c with
    | .handle nx _ =>
      match s.mem.read (c + 1) (slotIdx k nx) with
      | some (v, mem) => some { s with mem := mem, log := upd s.log c ((nx, v) :: s.log c) }
      | none => none
    | _ => none
  | .finish c =>
    match s.cp c with
    | .handle nx av => some { s with cp := upd s.cp c (.batch (nx + 1) av) }
    | _ => none
  | .throw c =>
    match s.cp c with
    | .handle nx _ => some { s with mem := s.mem.store (c + 1) (c + 1) nx, cp := upd s.cp c (.wait (nx + 1)) }
    | _ => none

def run (k : Nat) (G : List Nat) (s : St V) : List (Act V) → Option (St V)
  | [] => some s
  | a :: as => match step k G s a with
    | none => none
    | some s' => run k G s' as

/-- States reachable from a new ring with initial content `v`. -/
inductive Reach (k : Nat) (G : List Nat) (v : V) : St V → Prop
  | init : Reach k G v (.init v)
  | step {s s' : St V} (a : Act V) : Reach k G v s → step k G s a = some s' → Reach k G v s'

end Verif.RaRing
