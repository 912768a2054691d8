import Verif.Model.Sequencer
import Verif.Basic

/-!
Model of processors that depend on each other: a ring buffer with a single producer whose processors wait on barriers made with
`new_barrier(sequences_to_track)` (D4/single_producer_sequencer.h 124-129, sequence_barrier.h 67-95, fixed_sequence_group.h 86-90,
utils/util.h 59-95), batch_event_processor.h and no_op_event_processor.h, as a transition system.  One step is at most one access to
a shared variable; a barrier reads the sequences it depends on one at a time.  The waiting itself (which wait strategy, alerts) is
reduced to: the barrier may look again at any time, and `halt` makes `run` return at a point where it waits (batch_event_processor.h
133-139).  Memory is sequentially consistent.
-/

namespace Verif.Chain
open Verif Verif.Disr

/-- The fixed set-up: ring of `2 ^ k` slots, the sequences each processor's barrier tracks (`sequences_to_track`, empty for a
barrier on the cursor), and which processors are `no_op_event_processor`s. -/
structure Cfg where
  k : Nat
  deps : Nat → List Nat
  noop : Nat → Bool

/-- Program counter of the producer (as in Model/SingleRing.lean). -/
inductive PPc where
  | idle
  /-- `next(n)`, single_producer_sequencer.h 159-160: sequences still to read, minimum so far -/
  | nScan (n : Int) (rest : List Nat) (m : Int)
  /-- `try_next(n)`, `has_available_capacity` 137 -/
  | tScan (n : Int) (rest : List Nat) (m : Int)
  deriving DecidableEq, Repr

/-- Program counter of a processor. -/
inductive CPc where
  /-- not in `run` -/
  | idle
  /-- in `wait_for(nx)`, about to look -/
  | wait (nx : Int)
  /-- in `util::get_minimum_sequence` (util.h 63-73): sequences still to read, minimum so far -/
  | scan (nx : Int) (rest : List Nat) (m : Int)
  /-- batch loop condition, `available_sequence = av` -/
  | batch (nx av : Int)
  /-- inside `on_event` for `nx` -/
  | handle (nx av : Int)
  deriving DecidableEq, Repr

structure St (V : Type) where
  cursor : Int
  nextVal : Int
  cached : Int
  gating : List Nat
  seq : Nat → Int
  slot : Nat → V
  pp : PPc
  cp : Nat → CPc
  /-- history: content of the slot when a sequence was published -/
  pub : Int → Option V
  /-- history: sequences for which the handler was called, newest first -/
  started : Nat → List Int
  /-- history: sequences for which the handler returned or threw, newest first -/
  ended : Nat → List Int
  /-- history: a gating sequence was added after a slot was claimed or while `next` was running -/
  late : Bool

/-- A new ring and new processors (sequences start at -1, sequence.h 61-63). -/
def St.init {V : Type} (v : V) : St V where
  cursor := -1
  nextVal := -1
  cached := -1
  gating := []
  seq := fun _ => -1
  slot := fun _ => v
  pp := .idle
  cp := fun _ => .idle
  pub := fun _ => none
  started := fun _ => []
  ended := fun _ => []
  late := false

/-- `LLONG_MAX`, the start value of the minimum (util.h 61, 79). -/
def llmax : Int := 2 ^ 63 - 1

inductive Act (V : Type) where
  | callNext (n : Int)
  | callTry (n : Int)
  | pstep
  | write (x : Int) (v : V)
  | publish (x : Int)
  | addGating (c : Nat)
  | removeGating (c : Nat)
  | run (c : Nat)
  | look (c : Nat)
  | advance (c : Nat)
  | finish (c : Nat)
  | throw (c : Nat)
  | leave (c : Nat)

variable {V : Type}

/-- The end of a successful `next` or `try_next`: single_producer_sequencer.h 164-166 and 177-179. -/
def claim (s : St V) (n : Int) : St V := { s with nextVal := s.nextVal + n, pp := .idle }

/-- `next(n)` (single_producer_sequencer.h 147-167), `try_next(n)` (171-180), `has_available_capacity` (131-143) after the call. -/
def pstep (B : Int) (s : St V) : Option (St V) :=
  match s.pp with
  | .idle => none
  | .nScan n (c :: rest) m => some { s with pp := .nScan n rest (if s.seq c < m then s.seq c else m) }
  | .nScan n [] m =>
    if s.nextVal + n - B > m then some { s with pp := .nScan n s.gating s.nextVal }
    else some (claim { s with cached := m } n)
  | .tScan n (c :: rest) m => some { s with pp := .tScan n rest (if s.seq c < m then s.seq c else m) }
  | .tScan n [] m =>
    if s.nextVal + n - B > m then some { s with cached := m, pp := .idle }
    else some (claim { s with cached := m } n)

/-- One look of `wait_for` at what it waits for: the cursor when the barrier tracks nothing (sequence_barrier.h 71-73), otherwise the
tracked sequences one after the other (fixed_sequence_group.h 86-90; with one tracked sequence the value read is returned as it is).
The answer is used if it is at least `nx`, otherwise the wait goes on; `get_highest_published_sequence` returns its second argument
(single_producer_sequencer.h 202-205). -/
def look (cfg : Cfg) (s : St V) (c : Nat) : Option (St V) :=
  match s.cp c with
  | .wait nx =>
    match cfg.deps c with
    | [] => if s.cursor < nx then some s else some { s with cp := upd s.cp c (.batch nx s.cursor) }
    | d :: ds => some { s with cp := upd s.cp c (.scan nx (d :: ds) llmax) }
  | .scan nx (d :: ds) m => some { s with cp := upd s.cp c (.scan nx ds (if s.seq d < m then s.seq d else m)) }
  | .scan nx [] m => if m < nx then some { s with cp := upd s.cp c (.wait nx) } else some { s with cp := upd s.cp c (.batch nx m) }
  | _ => none

def step (cfg : Cfg) (s : St V) : Act V → Option (St V)
  -- single_producer_sequencer.h 147-157
  | .callNext n =>
    if s.pp = .idle ∧ 1 ≤ n then
      if s.nextVal + n - 2 ^ cfg.k > s.cached ∨ s.cached > s.nextVal then some { s with pp := .nScan n s.gating s.nextVal }
      else some (claim s n)
    else none
  -- 171-180, 131-136
  | .callTry n =>
    if s.pp = .idle ∧ 1 ≤ n then
      if s.nextVal + n - 2 ^ cfg.k > s.cached ∨ s.cached > s.nextVal then some { s with pp := .tScan n s.gating s.nextVal }
      else some (claim s n)
    else none
  | .pstep => pstep (2 ^ cfg.k) s
  -- the producer writes to the slot of a claimed, unpublished sequence (ring_buffer.h 103-106)
  | .write x v => if s.cursor < x ∧ x ≤ s.nextVal then some { s with slot := upd s.slot (slotIdx cfg.k x) v } else none
  -- 192-198
  | .publish x =>
    if s.cursor < x ∧ x ≤ s.nextVal then
      some { s with cursor := x, pub := fun y => if s.cursor < y ∧ y ≤ x then some (s.slot (slotIdx cfg.k y)) else s.pub y }
    else none
  -- 91-100
  | .addGating c =>
    some { s with
      seq := upd s.seq c s.cursor
      gating := s.gating ++ [c]
      late := s.late || decide (s.nextVal ≠ -1) || decide (s.pp ≠ .idle) }
  -- 102-115
  | .removeGating c => some { s with gating := s.gating.filter (fun d => decide (d ≠ c)) }
  -- batch_event_processor.h 113, no_op_event_processor.h 98
  | .run c => if s.cp c = .idle then some { s with cp := upd s.cp c (.wait (s.seq c + 1)) } else none
  | .look c => look cfg s c
  -- batch_event_processor.h 118-125, no_op_event_processor.h 103-106 (the loop of the no-op processor touches nothing shared)
  | .advance c =>
    match s.cp c with
    | .batch nx av =>
      if cfg.noop c then some { s with seq := upd s.seq c av, cp := upd s.cp c (.wait (av + 1)) }
      else if nx ≤ av then some { s with cp := upd s.cp c (.handle nx av), started := upd s.started c (nx :: s.started c) }
      else some { s with seq := upd s.seq c av, cp := upd s.cp c (.wait nx) }
    | _ => none
  -- batch_event_processor.h 123
  | .finish c =>
    match s.cp c with
    | .handle nx av => some { s with cp := upd s.cp c (.batch (nx + 1) av), ended := upd s.ended c (nx :: s.ended c) }
    | _ => none
  -- batch_event_processor.h 139-145
  | .throw c =>
    match s.cp c with
    | .handle nx _ =>
      some { s with seq := upd s.seq c nx, cp := upd s.cp c (.wait (nx + 1)), ended := upd s.ended c (nx :: s.ended c) }
    | _ => none
  -- batch_event_processor.h 133-138: alerts are checked in `wait_for` only
  | .leave c =>
    match s.cp c with
    | .wait _ => some { s with cp := upd s.cp c .idle }
    | .scan .. => some { s with cp := upd s.cp c .idle }
    | _ => none

def run (cfg : Cfg) (s : St V) : List (Act V) → Option (St V)
  | [] => some s
  | a :: as => match step cfg s a with
    | none => none
    | some s' => run cfg s' as

end Verif.Chain
