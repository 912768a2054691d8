import Verif.Model.Memory
import Verif.Model.Sequencer

/-!
The ring with several producers (D4/multi_producer_sequencer.h, ring_buffer.h, sequence.h, sequence_barrier.h, batch_event_processor.h) on the
memory of Model/Memory.lean.  `sequence::get` is an acquire load, `sequence::set` a release store (sequence.h 71, 73), `compare_and_set` a weak
compare-exchange (75-78), which may fail without reason.  The slots of the ring are ordinary variables.  `available_buffer_` is an array of
plain `int` (264).

`sync = false` is the code: the language gives no meaning to unordered accesses to plain variables; the model lets a load of a flag return any
value of the flag that is not older than what the thread knows of and transfers no knowledge with it (what the machine code of plain loads and stores
does at best), and records the access as an access to an ordinary variable, so that the race itself can be stated.
`sync = true` is the code with `available_buffer_` an array of atomics that are stored with release and loaded with acquire order.

Any thread may act as producer.  The processors `G` are the gating sequences, registered before the threads start, each run by one thread; a
processor tracks the cursor only.  Waiting and halting are in Model/RaWait.lean and Model/Processor.lean.
-/

namespace Verif.RaMulti
open Verif Verif.Disr Verif.RA

/-- Threads. -/
def prodT (p : Nat) : Nat := 2 * p
def procT (c : Nat) : Nat := 2 * c + 1

/-- Atomic variables: `cursor_`, `gating_sequence_cache_`, `sequence_` of processor `c`, element `j` of `available_buffer_`. -/
def cursorV : Nat := 0
def cacheV : Nat := 1
def seqV (c : Nat) : Nat := 2 * c + 2
def flagV (j : Nat) : Nat := 2 * j + 3

/-- Ordinary variables: slot `j`; the accesses to flag `j` if it is a plain `int`. -/
def slotO (j : Nat) : Nat := 2 * j
def flagO (j : Nat) : Nat := 2 * j + 1

/-- Program counter of a producer; `try = false`: `next(n)`, `try = true`: `try_next(n)`. -/
inductive PPc where
  | idle
  /-- 147, 177: about to load the cursor -/
  | load (try_ : Bool) (n : Int)
  /-- 151, 236: about to load the cache -/
  | cache (try_ : Bool) (n cur : Int)
  /-- in `get_minimum_sequence` (153, 238): sequences still to read, minimum so far -/
  | scan (try_ : Bool) (n cur : Int) (rest : List Nat) (m : Int)
  /-- 158, 239: about to store the cache -/
  | set (try_ : Bool) (n cur m : Int)
  /-- 159, 181: about to compare-and-set the cursor -/
  | cas (try_ : Bool) (n cur : Int)
  deriving DecidableEq, Repr

/-- Program counter of a processor (batch_event_processor.h 112-155, sequence_barrier.h 82-95). -/
inductive CPc where
  /-- `wait_for(nx)`: about to read the cursor -/
  | wait (nx : Int)
  /-- `get_highest_published_sequence(nx, hi)`, about to read the flag of `i` -/
  | scan (nx hi i : Int)
  /-- head of the loop over the batch -/
  | batch (nx av : Int)
  /-- in `on_event(nx)` -/
  | handle (nx av : Int)
  deriving DecidableEq, Repr

structure St (V : Type) where
  mem : Mem (Option V)
  /-- history: the newest value of the cursor -/
  cur : Int
  /-- history: the thread that claimed a sequence and has not published it -/
  owner : Int → Option Nat
  pp : Nat → PPc
  cp : Nat → CPc
  /-- history: the last value written to the slot of a sequence by its owner -/
  val : Int → Option V
  /-- history: what each processor read: sequence and value, newest first -/
  log : Nat → List (Int × Option V)

/-- A new ring: sequences, cache, cursor and flags are `-1` (sequence.h 58-63, memset 82). -/
def St.init {V : Type} : St V where
  mem := .init (-1) none
  cur := -1
  owner := fun _ => none
  pp := fun _ => .idle
  cp := fun _ => .wait 0
  val := fun _ => none
  log := fun _ => []

inductive Act (V : Type) where
  /-- `next(n)` or `try_next(n)` of producer `p` -/
  | call (p : Nat) (try_ : Bool) (n : Int)
  /-- the next step of the call, loading message `i` if it loads -/
  | pstep (p i : Nat)
  /-- the compare-and-set fails: another value, or no reason -/
  | casFail (p i : Nat)
  /-- the owner writes to the slot -/
  | write (p : Nat) (x : Int) (v : V)
  /-- `set_available` (246-251) of `publish(x)` or of one round of `publish(lo, hi)` -/
  | publish (p : Nat) (x : Int)
  /-- processor `c` reads message `i` of the cursor -/
  | look (c i : Nat)
  /-- `is_available` (208-213): processor `c` reads message `i` of the flag -/
  | flag (c i : Nat)
  /-- it calls `on_event` or, at the end of the batch, sets its sequence -/
  | advance (c : Nat)
  /-- the handler reads the slot -/
  | read (c : Nat)
  | finish (c : Nat)
  /-- the handler throws a `std::exception` -/
  | throw (c : Nat)

variable {V : Type}

/-- `wrap_point`: 150 (`next`); 235 (`try_next`, where the cursor is an `int`). -/
def wrap (k : Nat) (try_ : Bool) (n cur : Int) : Int :=
  if try_ then toInt32 (toInt32 cur + n) - 2 ^ k else cur + n - 2 ^ k

/-- The cursor value compared with the cache and given to `get_minimum_sequence`: 152-153; 237-238 (an `int`). -/
def curArg (try_ : Bool) (cur : Int) : Int := if try_ then toInt32 cur else cur

/-- A step of `next` (147-165) or `try_next` (169-183) with `has_available_capacity` (233-244). -/
def pstep (k : Nat) (G : List Nat) (s : St V) (p i : Nat) : Option (St V) :=
  match s.pp p with
  | .idle => none
  | .load b n =>
    match s.mem.load (prodT p) cursorV i with
    | some (cur, mem) => some { s with mem := mem, pp := upd s.pp p (.cache b n cur) }
    | none => none
  | .cache b n cur =>
    match s.mem.load (prodT p) cacheV i with
    | some (q, mem) =>
      if wrap k b n cur > q ∨ q > curArg b cur then some { s with mem := mem, pp := upd s.pp p (.scan b n cur G (curArg b cur)) }
      else some { s with mem := mem, pp := upd s.pp p (.cas b n cur) }
    | none => none
  | .scan b n cur (c :: rest) m =>
    match s.mem.load (prodT p) (seqV c) i with
    | some (q, mem) => some { s with mem := mem, pp := upd s.pp p (.scan b n cur rest (if q < m then q else m)) }
    | none => none
  | .scan b n cur [] m =>
    -- 154-157: `next` starts again; 239: `try_next` stores the minimum in any case
    if b = false ∧ wrap k b n cur > m then some { s with pp := upd s.pp p (.load b n) }
    else some { s with pp := upd s.pp p (.set b n cur m) }
  | .set b n cur m =>
    -- 158: `next` starts again; 240-241, 180: `try_next` throws or goes on
    some { s with
      mem := s.mem.store (prodT p) cacheV m
      pp := upd s.pp p (if b then (if wrap k b n cur > m then .idle else .cas b n cur) else .load b n) }
  | .cas _ n cur =>
    match s.mem.rmw (prodT p) cursorV (fun _ => cur + n) with
    | some (q, mem) =>
      if q = cur then
        some { s with
          mem := mem
          cur := cur + n
          owner := fun x => if cur < x ∧ x ≤ cur + n then some p else s.owner x
          pp := upd s.pp p .idle }
      else none
    | none => none

/-- Store to a flag. -/
def setFlag (sync : Bool) (m : Mem (Option V)) (t j : Nat) (f : Int) : Mem (Option V) :=
  if sync then m.store t (flagV j) f else (m.storeRlx t (flagV j) f).write t (flagO j) none

/-- Load of a flag. -/
def getFlag (sync : Bool) (m : Mem (Option V)) (t j i : Nat) : Option (Int × Mem (Option V)) :=
  if sync then m.load t (flagV j) i
  else match m.loadRlx t (flagV j) i with
    | some (f, m1) => (m1.read t (flagO j)).map (fun r => (f, r.2))
    | none => none

/-- One step: one access to memory. -/
def step (sync : Bool) (k : Nat) (G : List Nat) (s : St V) : Act V → Option (St V)
  | .call p b n => if s.pp p = .idle ∧ 1 ≤ n then some { s with pp := upd s.pp p (.load b n) } else none
  | .pstep p i => pstep k G s p i
  | .casFail p i =>
    match s.pp p with
    | .cas b n _ =>
      match s.mem.load (prodT p) cursorV i with
      | some (_, mem) => some { s with mem := mem, pp := upd s.pp p (.load b n) }
      | none => none
    | _ => none
  | .write p x v =>
    if s.owner x = some p then
      some { s with mem := s.mem.write (prodT p) (slotO (slotIdx k x)) (some v), val := upd s.val x (some v) }
    else none
  | .publish p x =>
    if s.owner x = some p then
      some { s with mem := setFlag sync s.mem (prodT p) (availIdx k x) (availFlag k x), owner := upd s.owner x none }
    else none
  | .look c i =>
    match s.cp c with
    | .wait nx =>
      if c ∈ G then
        match s.mem.load (procT c) cursorV i with
        | some (hi, mem) =>
          if hi < nx then some { s with mem := mem } else some { s with mem := mem, cp := upd s.cp c (.scan nx hi nx) }
        | none => none
      else none
    | _ => none
  | .flag c i =>
    match s.cp c with
    | .scan nx hi x =>
      match getFlag sync s.mem (procT c) (availIdx k x) i with
      | some (f, mem) =>
        if f = availFlag k x then
          some { s with mem := mem, cp := upd s.cp c (if x = hi then .batch nx hi else .scan nx hi (x + 1)) }
        else some { s with mem := mem, cp := upd s.cp c (.batch nx (x - 1)) }
      | none => none
    | _ => none
  | .advance c =>
    match s.cp c with
    | .batch nx av =>
      if nx ≤ av then some { s with cp := upd s.cp c (.handle nx av) }
      else some { s with mem := s.mem.store (procT c) (seqV c) av, cp := upd s.cp c (.wait nx) }
    | _ => none
  | .read c =>
    match s.cp c with
    | .handle nx _ =>
      match s.mem.read (procT c) (slotO (slotIdx k nx)) with
      | some (v, mem) => some { s with mem := mem, log := upd s.log c ((nx, v) :: s.log c) }
      | none => none
    | _ => none
  | .finish c =>
    match s.cp c with
    | .handle nx av => some { s with cp := upd s.cp c (.batch (nx + 1) av) }
    | _ => none
  | .throw c =>
    match s.cp c with
    | .handle nx _ => some { s with mem := s.mem.store (procT c) (seqV c) nx, cp := upd s.cp c (.wait (nx + 1)) }
    | _ => none

/-- A run in which fewer than 2^31 sequences are claimed (afterwards `try_next` is wrong in any case: C24). -/
def run (sync : Bool) (k : Nat) (G : List Nat) (s : St V) : List (Act V) → Option (St V)
  | [] => some s
  | a :: as => match step sync k G s a with
    | none => none
    | some s' => if s'.cur < 2 ^ 31 then run sync k G s' as else none

/-- The states of these runs. -/
inductive Reach (sync : Bool) (k : Nat) (G : List Nat) : St V → Prop
  | init : Reach sync k G .init
  | step {s s' : St V} (a : Act V) : Reach sync k G s → step sync k G s a = some s' → s'.cur < 2 ^ 31 → Reach sync k G s'

end Verif.RaMulti
