import Verif.Model.MultiRing

/-! Specification for C88: counts of steps, of calls that come to an end and of spurious failures in executions of the ring with many
producers. -/

namespace Verif.MRing
open Verif Verif.Disr

variable {V : Type}

/-- Inside `try_next`. -/
def PPc.inTry : PPc → Bool
  | .tLoad .. | .tCache .. | .tScan .. | .tSet .. | .tCas .. => true
  | _ => false

/-- Inside `next(n)`. -/
def PPc.inNext (n : Int) : PPc → Prop
  | .nLoad m | .nCache m _ | .nScan m _ _ _ | .nSet m _ | .nCas m _ => m = n
  | _ => False

/-- Producer `p` makes a step inside `try_next`. -/
def tryStep (s : St V) : Act V → Bool
  | .pstep p => (s.pp p).inTry
  | _ => false

/-- A call of `next` or `try_next` comes to an end: it returns a sequence or reports that the capacity is insufficient. -/
def callEnds (s' : St V) : Act V → Bool
  | .pstep p => decide (s'.pp p = .idle)
  | _ => false

/-- Number of steps inside `try_next` in an execution. -/
def trySteps (k : Nat) (s : St V) : List (Act V) → Nat
  | [] => 0
  | a :: as => match step k s a with
    | none => 0
    | some s' => (if tryStep s a then 1 else 0) + trySteps k s' as

/-- Number of calls that come to an end in an execution. -/
def ended (k : Nat) (s : St V) : List (Act V) → Nat
  | [] => 0
  | a :: as => match step k s a with
    | none => 0
    | some s' => (if callEnds s' a then 1 else 0) + ended k s' as

/-- Number of spurious failures of the compare-and-set in a schedule. -/
def weaks (as : List (Act V)) : Nat := as.countP fun | .weak _ => true | _ => false

/-- Number of processors added in a schedule. -/
def added (as : List (Act V)) : Nat := as.countP fun | .addGating _ => true | _ => false

/-- The actions of a window with producers `0 .. N-1`: any, but no processor is added (`add_gating_sequences` is not meant to run
concurrently with claims). -/
def InWindow (N : Nat) : Act V → Prop
  | .callNext p _ | .callTry p _ | .pstep p | .weak p => p < N
  | .addGating _ => False
  | _ => True

/-- The gating sequences a call in progress has still to read. -/
def PPc.toRead : PPc → Nat
  | .nScan _ _ rest _ | .tScan _ _ rest _ => rest.length
  | _ => 0

/-- No more than `G` gating sequences are registered, and no call in progress has more to read. -/
def ListsLe (G : Nat) (s : St V) : Prop := s.gating.length ≤ G ∧ ∀ p, (s.pp p).toRead ≤ G

end Verif.MRing
