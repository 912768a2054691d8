import Verif.Model.Sequencer
import Verif.Basic

/-!
Model of a ring buffer with a single producer sequencer, its one producer thread and any number of batch event processors
(D4/single_producer_sequencer.h, ring_buffer.h, sequence_barrier.h, batch_event_processor.h), as a transition system.  One step is
at most one access to a shared variable.  `next_value_` and `cached_value_` are private to the producer.  Memory is
sequentially consistent.
-/

namespace Verif.SRing
open Verif Verif.Disr

/-- Program counter of the producer. -/
inductive PPc where
  | idle
  /-- `next(n)`, 159-160: in `get_minimum_sequence`, sequences still to read, minimum so far -/
  | nScan (n : Int) (rest : List Nat) (m : Int)
  /-- `try_next(n)`, `has_available_capacity` 137 -/
  | tScan (n : Int) (rest : List Nat) (m : Int)
  deriving DecidableEq, Repr

/-- Program counter of a processor (see Model/MultiRing.lean). -/
inductive CPc where
  | idle
  | wait (nx : Int)
  | batch (nx av : Int)
  | handle (nx av : Int)
  deriving DecidableEq, Repr

structure St (V : Type) where
  /-- `cursor_` -/
  cursor : Int
  /-- `next_value_` -/
  nextVal : Int
  /-- `cached_value_` -/
  cached : Int
  gating : List Nat
  seq : Nat → Int
  slot : Nat → V
  pp : PPc
  cp : Nat → CPc
  /-- history: content of the slot when a sequence was published -/
  pub : Int → Option V
  /-- history: refused `try_next` -/
  refused : Nat
  /-- history: calls of `on_event` since the processor was last added, newest first -/
  dlog : Nat → List (Int × Bool)
  base : Nat → Int

/-- A new ring (83-89). -/
def St.init {V : Type} (v : V) : St V where
  cursor := -1
  nextVal := -1
  cached := -1
  gating := []
  seq := fun _ => -1
  slot := fun _ => v
  pp := .idle
  cp := fun _ => .idle
  pub := fun _ => none
  refused := 0
  dlog := fun _ => []
  base := fun _ => -1

inductive Act (V : Type) where
  | callNext (n : Int)
  | callTry (n : Int)
  /-- next step of the call in progress -/
  | pstep
  /-- the producer writes to the slot of a claimed, unpublished sequence -/
  | write (x : Int) (v : V)
  /-- `publish(x)` (192-198): every sequence up to `x` becomes visible -/
  | publish (x : Int)
  | addGating (c : Nat)
  | removeGating (c : Nat)
  | run (c : Nat)
  | look (c : Nat)
  | advance (c : Nat)
  | finish (c : Nat)
  | throw (c : Nat)
  | leave (c : Nat)

variable {V : Type}

def claim (s : St V) (n : Int) : St V := { s with nextVal := s.nextVal + n, pp := .idle }

/-- `next(n)` (147-167), `try_next(n)` (171-180) and `has_available_capacity` (131-143) after the call. -/
def pstep (B : Int) (s : St V) : Option (St V) :=
  match s.pp with
  | .idle => none
  | .nScan n (c :: rest) m => some { s with pp := .nScan n rest (if s.seq c < m then s.seq c else m) }
  | .nScan n [] m =>
    if s.nextVal + n - B > m then some { s with pp := .nScan n s.gating s.nextVal }
    else some (claim { s with cached := m } n)
  | .tScan n (c :: rest) m => some { s with pp := .tScan n rest (if s.seq c < m then s.seq c else m) }
  | .tScan n [] m =>
    if s.nextVal + n - B > m then some { s with cached := m, pp := .idle, refused := s.refused + 1 }
    else some (claim { s with cached := m } n)

def step (k : Nat) (s : St V) : Act V → Option (St V)
  | .callNext n =>
    if s.pp = .idle ∧ 1 ≤ n then
      -- 150-157
      if s.nextVal + n - 2 ^ k > s.cached ∨ s.cached > s.nextVal then some { s with pp := .nScan n s.gating s.nextVal }
      else some (claim s n)
    else none
  | .callTry n =>
    if s.pp = .idle ∧ 1 ≤ n then
      -- 133-136
      if s.nextVal + n - 2 ^ k > s.cached ∨ s.cached > s.nextVal then some { s with pp := .tScan n s.gating s.nextVal }
      else some (claim s n)
    else none
  | .pstep => pstep (2 ^ k) s
  | .write x v => if s.cursor < x ∧ x ≤ s.nextVal then some { s with slot := upd s.slot (slotIdx k x) v } else none
  | .publish x =>
    if s.cursor < x ∧ x ≤ s.nextVal then
      some { s with cursor := x, pub := fun y => if s.cursor < y ∧ y ≤ x then some (s.slot (slotIdx k y)) else s.pub y }
    else none
  | .addGating c =>
    some { s with
      seq := upd s.seq c s.cursor
      gating := s.gating ++ [c]
      dlog := upd s.dlog c []
      base := upd s.base c s.cursor }
  | .removeGating c => some { s with gating := s.gating.filter (fun d => decide (d ≠ c)) }
  | .run c => if s.cp c = .idle then some { s with cp := upd s.cp c (.wait (s.seq c + 1)) } else none
  | .look c =>
    match s.cp c with
    | .wait nx =>
      -- 202-205: get_highest_published_sequence returns its second argument
      if s.cursor < nx then some s else some { s with cp := upd s.cp c (.batch nx s.cursor) }
    | _ => none
  | .advance c =>
    match s.cp c with
    | .batch nx av =>
      if nx ≤ av then
        some { s with cp := upd s.cp c (.handle nx av), dlog := upd s.dlog c ((nx, decide (nx = av)) :: s.dlog c) }
      else some { s with seq := upd s.seq c av, cp := upd s.cp c (.wait nx) }
    | _ => none
  | .finish c =>
    match s.cp c with
    | .handle nx av => some { s with cp := upd s.cp c (.batch (nx + 1) av) }
    | _ => none
  | .throw c =>
    match s.cp c with
    | .handle nx _ => some { s with seq := upd s.seq c nx, cp := upd s.cp c (.wait (nx + 1)) }
    | _ => none
  | .leave c =>
    match s.cp c with
    | .wait _ => some { s with cp := upd s.cp c .idle }
    | _ => none

def run (k : Nat) (s : St V) : List (Act V) → Option (St V)
  | [] => some s
  | a :: as => match step k s a with
    | none => none
    | some s' => run k s' as

end Verif.SRing
