import Verif.Model.Memory

/-!
The wait strategies with a condition variable (D4/wait_strategies/blocking_wait_strategy.h 63-88, lite_blocking_wait_strategy.h 67-98,
timeout_blocking_wait_strategy.h) and `sequence_barrier::alert/clear_alert/check_alert` (sequence_barrier.h 97-111) on the memory of
Model/Memory.lean.  Atomic variables: 0 the mutex (1 = locked; `lock` is an acquiring read-modify-write, `unlock` a release store), 1 the cursor, 2
`signal_needed_` (1 = true), `o + 3` the flag `alerted_` of barrier `o`.  Any thread may publish, alert or wait.
The condition variable: `wait` releases the mutex and sleeps in one step; `notify_all` wakes all that sleep; a sleeper may also wake up for no
reason or because of a time-out.  The second loop of `wait_for` (dependent sequences) spins and needs no wake-up; it is left out.
-/

namespace Verif.RaWait
open Verif Verif.RA

inductive Strat where
  | blocking
  | lite
  deriving DecidableEq, Repr

/-- The atomic variables. -/
def mutex : Nat := 0
def cursor : Nat := 1
def signal : Nat := 2
def alerted (o : Nat) : Nat := o + 3

inductive Pc where
  | idle
  /-- lite, signal_all_when_blocking: about to exchange `signal_needed_` (94) -/
  | sExch
  /-- about to lock (blocking 86, lite 95) -/
  | sLock
  /-- mutex held, about to notify (blocking 87, lite 96) -/
  | sNotify
  /-- wait_for: first read of the cursor (blocking 70, lite 74) -/
  | rLook (o : Nat) (nx : Int)
  /-- about to lock (blocking 71, lite 75) -/
  | rLock (o : Nat) (nx : Int)
  /-- lite, mutex held: about to store `signal_needed_` (77) -/
  | rSet (o : Nat) (nx : Int)
  /-- mutex held: about to read the cursor (blocking 72, lite 78) -/
  | rCheck (o : Nat) (nx : Int)
  /-- mutex held: `check_alert` (blocking 73, lite 81) -/
  | rAlert (o : Nat) (nx : Int)
  /-- mutex held: about to call `wait` (blocking 74, lite 82) -/
  | rWait (o : Nat) (nx : Int)
  /-- in `wait`, mutex released -/
  | rAsleep (o : Nat) (nx : Int)
  /-- woken, about to lock the mutex again -/
  | rWoken (o : Nat) (nx : Int)
  /-- lite: mutex held, condition of the loop (83) -/
  | rAgain (o : Nat) (nx : Int)
  deriving DecidableEq, Repr

structure St where
  mem : Mem Unit
  pc : Nat → Pc

def St.init : St := ⟨{ Mem.init 0 () with msgs := fun l => [⟨if l = cursor then -1 else 0, .start⟩] }, fun _ => .idle⟩

inductive Act where
  /-- the producer stores the cursor (single_producer_sequencer.h 192-195), then signals -/
  | publish (t : Nat) (x : Int)
  /-- `alert()`: store (101), then signal (102) -/
  | alert (t o : Nat)
  | clearAlert (t o : Nat)
  /-- `wait_for(nx)` through barrier `o` -/
  | wait (t o : Nat) (nx : Int)
  /-- the next step of thread `t`; `i` is the message read by a load -/
  | go (t i : Nat)
  /-- a sleeper wakes up for no reason or because of a time-out -/
  | spurious (t : Nat)
  deriving Repr

/-- Entry of `signal_all_when_blocking`. -/
def Strat.sig : Strat → Pc
  | .blocking => .sLock
  | .lite => .sExch

/-- `lock()` of the mutex by `t`: blocks (`none`) while it is locked. -/
def lock (s : St) (t : Nat) (pc : Pc) : Option St :=
  match s.mem.rmw t mutex (fun _ => 1) with
  | some (v, mem) => if v = 0 then some ⟨mem, upd s.pc t pc⟩ else none
  | none => none

def unlock (s : St) (t : Nat) (pc : Pc) : St := ⟨s.mem.store t mutex 0, upd s.pc t pc⟩

/-- Thread `t` loads variable `l` and continues at `pc v`; `unl v` says whether it also releases the mutex (leaving the block). -/
def load (s : St) (t l i : Nat) (unl : Int → Bool) (pc : Int → Pc) : Option St :=
  match s.mem.load t l i with
  | some (v, mem) =>
    let s' : St := ⟨mem, upd s.pc t (pc v)⟩
    some (if unl v then unlock s' t (pc v) else s')
  | none => none

def step (w : Strat) (s : St) : Act → Option St
  | .publish t x => if s.pc t = .idle then some ⟨s.mem.store t cursor x, upd s.pc t w.sig⟩ else none
  | .alert t o => if s.pc t = .idle then some ⟨s.mem.store t (alerted o) 1, upd s.pc t w.sig⟩ else none
  | .clearAlert t o => if s.pc t = .idle then some ⟨s.mem.store t (alerted o) 0, s.pc⟩ else none
  | .wait t o nx => if s.pc t = .idle then some ⟨s.mem, upd s.pc t (.rLook o nx)⟩ else none
  | .spurious t =>
    match s.pc t with
    | .rAsleep o nx => some ⟨s.mem, upd s.pc t (.rWoken o nx)⟩
    | _ => none
  | .go t i =>
    match s.pc t with
    | .idle => none
    | .sExch =>
      match s.mem.rmwRel t signal (fun _ => 0) with
      | some (v, mem) => some ⟨mem, upd s.pc t (if v = 0 then .idle else .sLock)⟩
      | none => none
    | .sLock => lock s t .sNotify
    | .sNotify =>
      some (unlock ⟨s.mem, fun u => match s.pc u with | .rAsleep o nx => .rWoken o nx | p => p⟩ t .idle)
    | .rLook o nx => load s t cursor i (fun _ => false) (fun v => if v < nx then .rLock o nx else .idle)
    | .rLock o nx => lock s t (match w with | .blocking => .rCheck o nx | .lite => .rSet o nx)
    | .rSet o nx => some ⟨s.mem.store t signal 1, upd s.pc t (.rCheck o nx)⟩
    | .rCheck o nx => load s t cursor i (fun v => decide (¬ v < nx)) (fun v => if v < nx then .rAlert o nx else .idle)
    | .rAlert o nx => load s t (alerted o) i (fun v => decide (v ≠ 0)) (fun v => if v = 0 then .rWait o nx else .idle)
    | .rWait o nx => some (unlock s t (.rAsleep o nx))
    | .rAsleep _ _ => none
    | .rWoken o nx => lock s t (match w with | .blocking => .rCheck o nx | .lite => .rAgain o nx)
    | .rAgain o nx => load s t cursor i (fun v => decide (¬ v < nx)) (fun v => if v < nx then .rSet o nx else .idle)

def run (w : Strat) (s : St) : List Act → Option St
  | [] => some s
  | a :: as => match step w s a with
    | none => none
    | some s' => run w s' as

inductive Reach (w : Strat) : St → Prop
  | init : Reach w .init
  | step {s s' : St} (a : Act) : Reach w s → step w s a = some s' → Reach w s'

/-- The newest value of variable `l`. -/
def St.newest (s : St) (l : Nat) : Option Int := (s.mem.last l).map (·.val)

/-- Some thread is still going to wake the sleepers. -/
def St.Signalling (s : St) : Prop := ∃ u, s.pc u = .sExch ∨ s.pc u = .sLock ∨ s.pc u = .sNotify

end Verif.RaWait
