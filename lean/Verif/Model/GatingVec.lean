import Verif.Model.SafeQueue

/-!
The list of gating sequences of a sequencer: `std::vector<TSequence *> gating_sequences_` (D4/single_producer_sequencer.h,
D4/multi_producer_sequencer.h: the same code), one memory access per step.  `add_gating_sequences` (single 91-100, multi 93-102) is called by the
thread of a new subscriber (HP/data_multiplexer_subscriber.h 82-88) or of a starting event loop (HP/event_loop.h 79-88); `get_minimum_sequence`
(D4/utils/util.h 82-91) goes through the vector whenever a producer claims (single 137, 160, multi 154, 238);
`remove_gating_sequence` (single 102-115, multi 104-117) is offered to users of the ring.  Nothing synchronises these calls.

The vector is the one of libstdc++: three pointers; `push_back` constructs the element at the end and increments the end, or, when the buffer
is full, allocates a larger one, constructs the new element there, copies the others, frees the old buffer and stores the three pointers in this order.
A pointer is a buffer and an index.  The growth is a parameter.  A range-based `for` loads begin and end once.

Simplifications: sequentially consistent memory; `erase` uses the end that the loop condition has just loaded; values of the cursor and of the
sequences change by steps of the environment (`advance`, `progress`), upwards only.
-/

namespace Verif.GVec
open Verif

/-- A heap block of `size` elements; `none`: not constructed. -/
structure Buf where
  alive : Bool
  size : Nat
  cell : Nat → Option Nat

/-- Where a thread is in a call. -/
inductive Pc where
  | idle
  /-- `add_gating_sequences({&c})`: about to load the cursor -/
  | addLoad (c : Nat)
  /-- about to store `v` to the sequence -/
  | addSet (c : Nat) (v : Int)
  /-- `push_back`: about to load the end -/
  | addFin (c : Nat)
  /-- about to load the end of the storage -/
  | addEos (c : Nat) (f : Nat × Nat)
  /-- room: about to write the element -/
  | addCell (c : Nat) (f : Nat × Nat)
  /-- about to store the new end -/
  | addInc (c : Nat) (f : Nat × Nat)
  /-- no room: about to load the begin and to allocate -/
  | addAlloc (c : Nat) (f : Nat × Nat)
  /-- about to copy element `j` -/
  | addCopy (c : Nat) (f : Nat × Nat) (j nb : Nat)
  /-- about to free the old buffer -/
  | addFree (c : Nat) (f : Nat × Nat) (nb : Nat)
  /-- about to store the begin, the end, the end of the storage -/
  | addS1 (c : Nat) (f : Nat × Nat) (nb : Nat)
  | addS2 (c : Nat) (f : Nat × Nat) (nb : Nat)
  | addS3 (c : Nat) (nb : Nat)
  /-- `get_minimum_sequence(.., m0)`: about to load the begin -/
  | minBegin (m0 : Int)
  /-- about to load the end -/
  | minEnd (m0 : Int) (b : Nat)
  /-- compares with the end, about to load the element; `reads`: what was read so far -/
  | minCell (m0 m : Int) (b i : Nat) (e : Nat × Nat) (reads : List (Nat × Int))
  /-- about to load the value of the sequence `c` -/
  | minSeq (m0 m : Int) (c b i : Nat) (e : Nat × Nat) (reads : List (Nat × Int))
  /-- `remove_gating_sequence(x)`: about to load the begin -/
  | remBegin (x : Nat)
  /-- about to load the end; `r`: the variable `removed` -/
  | remEnd (x b i : Nat) (r : Bool)
  /-- about to load the element -/
  | remCell (x b i : Nat) (f : Nat × Nat) (r : Bool)
  /-- `erase`: about to move element `j + 1` to `j` -/
  | remMove (x b i j : Nat) (f : Nat × Nat)
  /-- about to store the new end -/
  | remStore (x b i : Nat) (f : Nat × Nat)
  deriving DecidableEq

/-- Calls that have returned. -/
inductive Ev where
  | add (c : Nat)
  | min (m0 : Int) (reads : List (Nat × Int)) (res : Int)
  | rem (x : Nat) (r : Bool)
  deriving DecidableEq

structure St where
  cursor : Int
  seq : Nat → Int
  /-- `_M_start` -/
  start : Nat
  /-- `_M_finish` -/
  fin : Nat × Nat
  /-- `_M_end_of_storage` -/
  eos : Nat × Nat
  heap : Nat → Buf
  /-- next unused block -/
  fresh : Nat
  pc : Nat → Pc
  /-- memory outside a live block, or not constructed, was accessed -/
  bad : Bool
  /-- calls that returned, oldest first -/
  hist : List Ev

/-- A new ring: an empty vector, all three pointers null (block 0, without elements). -/
def St.init : St where
  cursor := -1
  seq := fun _ => -1
  start := 0
  fin := (0, 0)
  eos := (0, 0)
  heap := fun _ => ⟨true, 0, fun _ => none⟩
  fresh := 1
  pc := fun _ => .idle
  bad := false
  hist := []

inductive Act where
  | callAdd (t c : Nat)
  | callMin (t : Nat) (m0 : Int)
  | callRem (t x : Nat)
  /-- next access of thread `t` -/
  | tau (t : Nat)
  /-- a claim or a publication moves the cursor -/
  | advance (v : Int)
  /-- a processor moves its sequence -/
  | progress (c : Nat) (v : Int)
  deriving DecidableEq

/-- Load of an element; `none` if there is none. -/
def rd (s : St) (b i : Nat) : Option Nat := if (s.heap b).alive ∧ i < (s.heap b).size then (s.heap b).cell i else none

/-- Store of an element. -/
def wr (s : St) (b i : Nat) (c : Nat) : St :=
  if (s.heap b).alive ∧ i < (s.heap b).size then
    { s with heap := upd s.heap b { s.heap b with cell := upd (s.heap b).cell i (some c) } }
  else { s with bad := true }

def goto (s : St) (t : Nat) (p : Pc) : St := { s with pc := upd s.pc t p }

/-- An invalid access: nothing is known of what follows; the thread stops. -/
def invalid (s : St) (t : Nat) : St := { s with bad := true, pc := upd s.pc t .idle }

def ret (s : St) (t : Nat) (e : Ev) : St := { s with pc := upd s.pc t .idle, hist := s.hist ++ [e] }

/-- One access of thread `t`. -/
def tau (grow : Nat → Nat) (s : St) (t : Nat) : Option St :=
  match s.pc t with
  | .idle => none
  -- single 95, multi 97
  | .addLoad c => some (goto s t (.addSet c s.cursor))
  -- single 97, multi 99
  | .addSet c v => some (goto { s with seq := upd s.seq c v } t (.addFin c))
  -- single 98, multi 100: push_back
  | .addFin c => some (goto s t (.addEos c s.fin))
  | .addEos c f => some (goto s t (if f = s.eos then .addAlloc c f else .addCell c f))
  | .addCell c f => some (goto (wr s f.1 f.2 c) t (.addInc c f))
  | .addInc c f => some (ret { s with fin := (f.1, f.2 + 1) } t (.add c))
  | .addAlloc c f =>
    -- the number of elements is the difference of the two pointers, which must belong together
    if s.start = f.1 then
      some (goto { s with
        heap := upd s.heap s.fresh ⟨true, grow f.2, upd (fun _ => none) f.2 (some c)⟩
        fresh := s.fresh + 1 } t (.addCopy c f 0 s.fresh))
    else some (invalid s t)
  | .addCopy c f j nb =>
    if j = f.2 then some (goto s t (.addFree c f nb))
    else match rd s f.1 j with
      | some d => some (goto (wr s nb j d) t (.addCopy c f (j + 1) nb))
      | none => some (invalid s t)
  | .addFree c f nb =>
    -- there is nothing to free behind a null pointer
    if f.1 = 0 then some (goto s t (.addS1 c f nb))
    else if (s.heap f.1).alive then some (goto { s with heap := upd s.heap f.1 { s.heap f.1 with alive := false } } t (.addS1 c f nb))
    else some (invalid s t)
  | .addS1 c f nb => some (goto { s with start := nb } t (.addS2 c f nb))
  | .addS2 c f nb => some (goto { s with fin := (nb, f.2 + 1) } t (.addS3 c nb))
  | .addS3 c nb => some (ret { s with eos := (nb, (s.heap nb).size) } t (.add c))
  -- util.h 85
  | .minBegin m0 => some (goto s t (.minEnd m0 s.start))
  | .minEnd m0 b => some (goto s t (.minCell m0 m0 b 0 s.fin []))
  | .minCell m0 m b i e reads =>
    if (b, i) = e then some (ret s t (.min m0 reads m))  -- 90
    else match rd s b i with
      | some c => some (goto s t (.minSeq m0 m c b i e reads))
      | none => some (invalid s t)
  -- 86-88
  | .minSeq m0 m c b i e reads =>
    some (goto s t (.minCell m0 (if s.seq c < m then s.seq c else m) b (i + 1) e (reads ++ [(c, s.seq c)])))
  -- single 107, multi 109
  | .remBegin x => some (goto s t (.remEnd x s.start 0 false))
  | .remEnd x b i r =>
    if (b, i) = s.fin then some (ret s t (.rem x r))  -- single 114, multi 116
    else some (goto s t (.remCell x b i s.fin r))
  | .remCell x b i f r =>
    match rd s b i with
    | some c => some (goto s t (if c = x then .remMove x b i i f else .remEnd x b (i + 1) r))
    | none => some (invalid s t)
  | .remMove x b i j f =>
    if (b, j + 1) = f then some (goto s t (.remStore x b i f))
    else match rd s b (j + 1) with
      | some d => some (goto (wr s b j d) t (.remMove x b i (j + 1) f))
      | none => some (invalid s t)
  | .remStore x b i f => some (goto { s with fin := (f.1, f.2 - 1) } t (.remEnd x b i true))

/-- One step; `none`: not possible.  `grow n`: size of the new block when `n` elements fill the old one. -/
def step (grow : Nat → Nat) (s : St) : Act → Option St
  | .callAdd t c => if s.pc t = .idle then some (goto s t (.addLoad c)) else none
  | .callMin t m0 => if s.pc t = .idle then some (goto s t (.minBegin m0)) else none
  | .callRem t x => if s.pc t = .idle then some (goto s t (.remBegin x)) else none
  | .tau t => tau grow s t
  | .advance v => if s.cursor ≤ v then some { s with cursor := v } else none
  | .progress c v => if s.seq c ≤ v then some { s with seq := upd s.seq c v } else none

def run (grow : Nat → Nat) (s : St) : List Act → Option St
  | [] => some s
  | a :: as => match step grow s a with
    | none => none
    | some s' => run grow s' as

/-- The growth of libstdc++. -/
def stdGrow (n : Nat) : Nat := if n = 0 then 1 else 2 * n

end Verif.GVec
