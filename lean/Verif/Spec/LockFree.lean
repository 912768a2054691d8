import Verif.Model.LockFreeStack

/-! Specification for C80: counts of steps, calls and results in executions of the stack. -/

namespace Verif.LFS

variable {α : Type}

/-- Number of calls that have returned. -/
def completed (h : List (Obs α)) : Nat := h.countP fun | .ret .. => true | .inv .. => false

/-- Number of calls of thread `t` that have returned. -/
def completedBy (t : Nat) (h : List (Obs α)) : Nat := h.countP fun | .ret u _ _ => decide (u = t) | .inv .. => false

/-- Number of calls begun. -/
def calls (sched : Sched α) : Nat := sched.countP fun x => match x.2 with | .call _ => true | .go _ => false

/-- Upper bound of the spurious failures of `compare_exchange_weak`: the steps in which the schedule allows one. -/
def spurious (sched : Sched α) : Nat := sched.countP fun x => match x.2 with | .go true => true | _ => false

/-- Number of steps of thread `t`. -/
def stepsOf (t : Nat) (sched : Sched α) : Nat := sched.countP fun x => decide (x.1 = t)

end Verif.LFS
