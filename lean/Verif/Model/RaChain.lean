import Verif.Model.Memory
import Verif.Model.Sequencer

/-!
A ring with a single producer and a pipeline of `N` processors on the memory of Model/Memory.lean: the barrier of the first is on the cursor
(`new_barrier({})`), that of each further one on the sequence of the one before (`new_barrier({&seq})`, D4/single_producer_sequencer.h 124-129,
sequence_barrier.h 67-95), and the gating sequence is that of the last one (`add_gating_sequences`).  `sequence::get` is an acquire load and `sequence::set` a
release store (sequence.h 71, 73); the slots are ordinary variables, which the producer and every handler may read and write (`on_event(T &, ...)`).  Variable 0 is
`cursor_`, variable `j` the `sequence_` of processor `j`, `1 ≤ j ≤ N`; thread 0 is the producer, thread `j` runs processor `j`.  Simplifications: as in
Model/RaRing.lean; what a wait strategy reads of the cursor besides the dependent sequence is left out (it only makes more known); barriers on several sequences
are in Model/Chain.lean (sequentially consistent memory).
-/

namespace Verif.RaChain
open Verif Verif.Disr Verif.RA

/-- Program counter of the producer. -/
inductive PPc where
  | idle
  /-- in `next(n)` or `try_next(n)`, about to read the gating sequence -/
  | want (n : Int)
  deriving DecidableEq, Repr

/-- Program counter of a processor (batch_event_processor.h 112-155). -/
inductive CPc where
  | wait (nx : Int)
  | batch (nx av : Int)
  | handle (nx av : Int)
  deriving DecidableEq, Repr

structure St (V : Type) where
  mem : Mem V
  nextVal : Int
  cached : Int
  /-- history: the last sequence published -/
  cur : Int
  pp : PPc
  cp : Nat → CPc
  /-- history: the last value written to the event of a sequence, by whoever had it -/
  cont : Int → Option V
  /-- history: what each processor read, newest first -/
  log : Nat → List (Int × V)

def St.init {V : Type} (v : V) : St V where
  mem := .init (-1) v
  nextVal := -1
  cached := -1
  cur := -1
  pp := .idle
  cp := fun _ => .wait 0
  cont := fun _ => none
  log := fun _ => []

inductive Act (V : Type) where
  | call (n : Int)
  /-- the producer reads message `i` of the gating sequence; without enough room it tries again (`next`) or gives up (`try_next`) -/
  | scan (i : Nat) (again : Bool)
  | write (x : Int) (v : V)
  /-- the producer reads the slot of a claimed sequence -/
  | peek (x : Int)
  | publish (x : Int)
  /-- processor `j` reads message `i` of the sequence it depends on -/
  | look (j i : Nat)
  | advance (j : Nat)
  | read (j : Nat)
  /-- the handler changes the event -/
  | change (j : Nat) (v : V)
  | finish (j : Nat)
  | throw (j : Nat)

variable {V : Type}

def step (k N : Nat) (s : St V) : Act V → Option (St V)
  | .call n =>
    if s.pp = .idle ∧ 1 ≤ n then
      -- single_producer_sequencer.h 133-136, 151-157
      if s.nextVal + n - 2 ^ k > s.cached ∨ s.cached > s.nextVal then some { s with pp := .want n }
      else some { s with nextVal := s.nextVal + n }
    else none
  | .scan i again =>
    match s.pp with
    | .want n =>
      match s.mem.load 0 N i with
      | some (q, mem) =>
        -- util.h 78-95, 159-162, 137-140
        let m := if q < s.nextVal then q else s.nextVal
        if s.nextVal + n - 2 ^ k > m then
          if again then some { s with mem := mem } else some { s with mem := mem, cached := m, pp := .idle }
        else some { s with mem := mem, cached := m, nextVal := s.nextVal + n, pp := .idle }
      | none => none
    | _ => none
  | .write x v =>
    if s.cur < x ∧ x ≤ s.nextVal then some { s with mem := s.mem.write 0 (slotIdx k x) v, cont := upd s.cont x (some v) } else none
  | .peek x =>
    if s.cur < x ∧ x ≤ s.nextVal then
      match s.mem.read 0 (slotIdx k x) with
      | some (_, mem) => some { s with mem := mem }
      | none => none
    else none
  | .publish x =>
    if s.cur < x ∧ x ≤ s.nextVal then some { s with mem := s.mem.store 0 0 x, cur := x } else none
  | .look j i =>
    match s.cp j with
    | .wait nx =>
      if 1 ≤ j ∧ j ≤ N then
        match s.mem.load j (j - 1) i with
        | some (av, mem) =>
          if av < nx then some { s with mem := mem } else some { s with mem := mem, cp := upd s.cp j (.batch nx av) }
        | none => none
      else none
    | _ => none
  | .advance j =>
    match s.cp j with
    | .batch nx av =>
      if nx ≤ av then some { s with cp := upd s.cp j (.handle nx av) }
      else some { s with mem := s.mem.store j j av, cp := upd s.cp j (.wait nx) }
    | _ => none
  | .read j =>
    match s.cp j with
    | .handle nx _ =>
      match s.mem.read j (slotIdx k nx) with
      | some (v, mem) => some { s with mem := mem, log := upd s.log j ((nx, v) :: s.log j) }
      | none => none
    | _ => none
  | .change j v =>
    match s.cp j with
    | .handle nx _ => some { s with mem := s.mem.write j (slotIdx k nx) v, cont := upd s.cont nx (some v) }
    | _ => none
  | .finish j =>
    match s.cp j with
    | .handle nx av => some { s with cp := upd s.cp j (.batch (nx + 1) av) }
    | _ => none
  | .throw j =>
    match s.cp j with
    | .handle nx _ => some { s with mem := s.mem.store j j nx, cp := upd s.cp j (.wait (nx + 1)) }
    | _ => none

def run (k N : Nat) (s : St V) : List (Act V) → Option (St V)
  | [] => some s
  | a :: as => match step k N s a with
    | none => none
    | some s' => run k N s' as

inductive Reach (k N : Nat) (v : V) : St V → Prop
  | init : Reach k N v (.init v)
  | step {s s' : St V} (a : Act V) : Reach k N v s → step k N s a = some s' → Reach k N v s'

end Verif.RaChain
