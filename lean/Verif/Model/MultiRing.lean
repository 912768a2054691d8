import Verif.Model.Sequencer
import Verif.Basic

/-!
Model of a ring buffer with a multi producer sequencer, any number of producer threads and any number of batch event processors
(D4/multi_producer_sequencer.h, ring_buffer.h, sequence_barrier.h, batch_event_processor.h), as a transition system.  One
step is at most one access to a shared variable (cursor, gating cache, one gating sequence, one availability flag, one
ring slot).  Memory is sequentially consistent (`available_buffer_` is a plain array in the code).  A processor tracks the cursor
(no dependent processors).

Not modelled here: `alert`/`halt` and the waiting itself (see Model/Processor.lean).
-/

namespace Verif.MRing
open Verif Verif.Disr

/-- Program counter of a producer thread. -/
inductive PPc where
  | idle
  /-- `next(n)`, 147: about to load the cursor -/
  | nLoad (n : Int)
  /-- 151: cursor value `cur` loaded, about to load the gating cache -/
  | nCache (n cur : Int)
  /-- 153: in `get_minimum_sequence`, sequences still to read, minimum so far -/
  | nScan (n cur : Int) (rest : List Nat) (m : Int)
  /-- 158: about to store the gating cache -/
  | nSet (n m : Int)
  /-- 159: about to compare-and-set the cursor -/
  | nCas (n cur : Int)
  /-- `try_next(n)`, 177 -/
  | tLoad (n : Int)
  /-- 236 -/
  | tCache (n cur : Int)
  /-- 238 -/
  | tScan (n cur : Int) (rest : List Nat) (m : Int)
  /-- 239 -/
  | tSet (n cur m : Int)
  /-- 181 -/
  | tCas (n cur : Int)
  deriving DecidableEq, Repr

/-- Program counter of a batch event processor. -/
inductive CPc where
  /-- not in `run()` -/
  | idle
  /-- in `wait_for(nx)`, about to load the cursor -/
  | wait (nx : Int)
  /-- in `get_highest_published_sequence(nx, hi)` at `i` -/
  | scan (nx hi i : Int)
  /-- in the loop of D4/batch_event_processor.h:118-124 with `next_sequence = nx`, `available_sequence = av` -/
  | batch (nx av : Int)
  /-- in `on_event` of `nx` -/
  | handle (nx av : Int)
  deriving DecidableEq, Repr

structure St (V : Type) where
  /-- `cursor_` -/
  cursor : Int
  /-- `gating_sequence_cache_` -/
  cache : Int
  /-- `gating_sequences_` as ids of processors -/
  gating : List Nat
  /-- `sequence_` of each processor -/
  seq : Nat → Int
  /-- `available_buffer_` -/
  avail : Nat → Int
  /-- `events_` -/
  slot : Nat → V
  pp : Nat → PPc
  cp : Nat → CPc
  /-- history: the producer that claimed a sequence and has not published it yet -/
  owner : Int → Option Nat
  /-- history: content of the slot when a sequence was published -/
  pub : Int → Option V
  /-- history: claims (producer, lo, hi), newest first -/
  claims : List (Nat × Int × Int)
  /-- history: calls of `on_event` (sequence, end of batch) of each processor since it was last added as gating sequence, newest
  first -/
  dlog : Nat → List (Int × Bool)
  /-- history: value of `sequence_` when the processor was last added as gating sequence -/
  base : Nat → Int

/-- A new ring. -/
def St.init {V : Type} (v : V) : St V where
  cursor := -1
  cache := -1
  gating := []
  seq := fun _ => -1
  avail := fun _ => -1
  slot := fun _ => v
  pp := fun _ => .idle
  cp := fun _ => .idle
  owner := fun _ => none
  pub := fun _ => none
  claims := []
  dlog := fun _ => []
  base := fun _ => -1

inductive Act (V : Type) where
  /-- a producer calls `next(n)` -/
  | callNext (p : Nat) (n : Int)
  /-- a producer calls `try_next(n)` -/
  | callTry (p : Nat) (n : Int)
  /-- next step of a call in progress -/
  | pstep (p : Nat)
  /-- the compare-and-set at 160 or 181 fails spuriously: it is a `compare_exchange_weak` (D4/sequence.h 75-78) -/
  | weak (p : Nat)
  /-- a producer writes to the slot of a sequence it has claimed -/
  | write (p : Nat) (s : Int) (v : V)
  /-- `set_available` (246-251) of a claimed sequence: `publish(s)` (192-196) or one round of the loop of `publish(lo,hi)`
  (198-204) -/
  | publish (p : Nat) (s : Int)
  /-- `add_gating_sequences` (93-102), taken as one step: it is not meant to run concurrently with claims (C89, Model/GatingVec.lean) -/
  | addGating (c : Nat)
  /-- `remove_gating_sequence` (104-117), taken as one step (C89) -/
  | removeGating (c : Nat)
  /-- `run()` called -/
  | run (c : Nat)
  /-- the wait strategy loads the cursor -/
  | look (c : Nat)
  /-- one round of `get_highest_published_sequence` -/
  | scan (c : Nat)
  /-- `on_event` is called, or the batch is over and the sequence is set -/
  | advance (c : Nat)
  /-- `on_event` returns -/
  | finish (c : Nat)
  /-- `on_event` throws a `std::exception`: 136-143 -/
  | throw (c : Nat)
  /-- `run()` returns after an alert (found in `wait_for`) -/
  | leave (c : Nat)

variable {V : Type}

/-- Claim of `cur+1 .. cur+n` by `p`. -/
def claim (s : St V) (p : Nat) (cur n : Int) : St V :=
  { s with
    cursor := cur + n
    pp := upd s.pp p .idle
    owner := fun x => if cur < x ∧ x ≤ cur + n then some p else s.owner x
    claims := (p, cur + 1, cur + n) :: s.claims }

/-- A step inside `next` (147-165) or `try_next` (169-183) and `has_available_capacity` (233-244). -/
def pstep (B : Int) (s : St V) (p : Nat) : Option (St V) :=
  match s.pp p with
  | .idle => none
  | .nLoad n => some { s with pp := upd s.pp p (.nCache n s.cursor) }
  | .nCache n cur =>
    -- 150-153, 159
    if cur + n - B > s.cache ∨ s.cache > cur then
      some { s with pp := upd s.pp p (.nScan n cur s.gating cur) }
    else some { s with pp := upd s.pp p (.nCas n cur) }
  | .nScan n cur [] m =>
    -- 154-158
    if cur + n - B > m then some { s with pp := upd s.pp p (.nLoad n) }
    else some { s with pp := upd s.pp p (.nSet n m) }
  | .nScan n cur (c :: rest) m =>
    some { s with pp := upd s.pp p (.nScan n cur rest (if s.seq c < m then s.seq c else m)) }
  | .nSet n m => some { s with cache := m, pp := upd s.pp p (.nLoad n) }
  | .nCas n cur =>
    if s.cursor = cur then some (claim s p cur n) else some { s with pp := upd s.pp p (.nLoad n) }
  | .tLoad n => some { s with pp := upd s.pp p (.tCache n s.cursor) }
  | .tCache n cur =>
    -- 233-237: the cursor value is an `int` here
    if toInt32 (toInt32 cur + n) - B > s.cache ∨ s.cache > toInt32 cur then
      some { s with pp := upd s.pp p (.tScan n cur s.gating (toInt32 cur)) }
    else some { s with pp := upd s.pp p (.tCas n cur) }
  | .tScan n cur [] m => some { s with pp := upd s.pp p (.tSet n cur m) }
  | .tScan n cur (c :: rest) m =>
    some { s with pp := upd s.pp p (.tScan n cur rest (if s.seq c < m then s.seq c else m)) }
  | .tSet n cur m =>
    -- 239-241; insufficient_capacity_exception at 180
    if toInt32 (toInt32 cur + n) - B > m then some { s with cache := m, pp := upd s.pp p .idle }
    else some { s with cache := m, pp := upd s.pp p (.tCas n cur) }
  | .tCas n cur =>
    if s.cursor = cur then some (claim s p cur n) else some { s with pp := upd s.pp p (.tLoad n) }

/-- A spurious failure of the compare-and-set: the loop of `next` (145-165) or `try_next` (176-181) starts again. -/
def weak (s : St V) (p : Nat) : Option (St V) :=
  match s.pp p with
  | .nCas n _ => some { s with pp := upd s.pp p (.nLoad n) }
  | .tCas n _ => some { s with pp := upd s.pp p (.tLoad n) }
  | _ => none

/-- One step; `none` = not possible. `B = 2^k`. -/
def step (k : Nat) (s : St V) : Act V → Option (St V)
  | .callNext p n => if s.pp p = .idle ∧ 1 ≤ n then some { s with pp := upd s.pp p (.nLoad n) } else none
  | .callTry p n => if s.pp p = .idle ∧ 1 ≤ n then some { s with pp := upd s.pp p (.tLoad n) } else none
  | .pstep p => pstep (2 ^ k) s p
  | .weak p => weak s p
  | .write p x v =>
    if s.owner x = some p then some { s with slot := upd s.slot (slotIdx k x) v } else none
  | .publish p x =>
    if s.owner x = some p then
      some { s with
        avail := upd s.avail (availIdx k x) (availFlag k x)
        owner := upd s.owner x none
        pub := upd s.pub x (some (s.slot (slotIdx k x))) }
    else none
  | .addGating c =>
    some { s with
      seq := upd s.seq c s.cursor
      gating := s.gating ++ [c]
      dlog := upd s.dlog c []
      base := upd s.base c s.cursor }
  | .removeGating c => some { s with gating := s.gating.filter (fun d => decide (d ≠ c)) }
  | .run c => if s.cp c = .idle then some { s with cp := upd s.cp c (.wait (s.seq c + 1)) } else none
  | .look c =>
    match s.cp c with
    | .wait nx =>
      -- D4/wait_strategies/*.h return a value of the cursor ≥ nx; D4/sequence_barrier.h:90-92
      if s.cursor < nx then some s else some { s with cp := upd s.cp c (.scan nx s.cursor nx) }
    | _ => none
  | .scan c =>
    match s.cp c with
    | .scan nx hi i =>
      if i ≤ hi then
        if s.avail (availIdx k i) = availFlag k i then some { s with cp := upd s.cp c (.scan nx hi (i + 1)) }
        else some { s with cp := upd s.cp c (.batch nx (i - 1)) }
      else some { s with cp := upd s.cp c (.batch nx hi) }
    | _ => none
  | .advance c =>
    match s.cp c with
    | .batch nx av =>
      if nx ≤ av then
        some { s with cp := upd s.cp c (.handle nx av), dlog := upd s.dlog c ((nx, decide (nx = av)) :: s.dlog c) }
      else some { s with seq := upd s.seq c av, cp := upd s.cp c (.wait nx) }
    | _ => none
  | .finish c =>
    match s.cp c with
    | .handle nx av => some { s with cp := upd s.cp c (.batch (nx + 1) av) }
    | _ => none
  | .throw c =>
    match s.cp c with
    | .handle nx _ => some { s with seq := upd s.seq c nx, cp := upd s.cp c (.wait (nx + 1)) }
    | _ => none
  | .leave c =>
    match s.cp c with
    | .wait _ => some { s with cp := upd s.cp c .idle }
    | _ => none

def run (k : Nat) (s : St V) : List (Act V) → Option (St V)
  | [] => some s
  | a :: as => match step k s a with
    | none => none
    | some s' => run k s' as

end Verif.MRing
