import Verif.Model.MuxDispatch
import Verif.Spec.MemDispatch
import Verif.Lemmas.DataMux

/-!
Specification for C87.  The histories are those of Spec/ElDispatch.lean and have to conform to the same automaton (`ElD.Conforms`); `MemD.takenUp` and `MemD.gets` read off what was
taken up and what a listener was called with; `MemD.Ok` says how a subscriber has to be used (a listener name is not registered twice, ids do not wrap round).
-/

namespace Verif.MuxD
open Verif Verif.Disr ElD MemD

variable {T : Type}

/-- `s0` is the state of a multiplexer in use (`Mux.Reach`: any number of subscribers, any publications) in which the subscriber `c` has just been created. -/
def Created (shared : Bool) (k : Nat) (v : T) (c : Nat) (s0 : Mux.St T) : Prop :=
  ∃ s, Mux.Reach shared k (fun _ => True) v s ∧ s.ring.cursor = s.ring.nextVal ∧ s.ring.cp c = .idle ∧ Mux.step shared k s (.subscribe c) = some s0

/-- The last events of the batches, in order: sequence and object. -/
def newest (c : Nat) (s : Mux.St T) : List Data := (s.dl c).reverse.map fun e => (e.1, e.2.1)

/-- The provider of subscriber `c`, its listeners and the rest of the multiplexer. -/
abbrev Sub (shared : Bool) (k c : Nat) (s0 : Mux.St T) := MemD.St (chan shared k c s0)

/-- The multiplexer. -/
def mux {shared : Bool} {k c : Nat} {s0 : Mux.St T} (s : Sub shared k c s0) : Mux.St T := s.ch

/-- The subscriber's thread waits and has read everything published. -/
def Quiet (c : Nat) (s : Mux.St T) : Prop := ∃ nx, s.ring.cp c = .wait nx ∧ s.ring.cursor < nx

/-- Executions of the subscriber after it is in state `s`. -/
inductive After (n : String) (ct : Bool) {shared : Bool} {k c : Nat} {s0 : Mux.St T} (s : Sub shared k c s0) : Sub shared k c s0 → Prop where
  | refl : After n ct s s
  | step {s1 s2 a} : After n ct s s1 → Ok s1 a → MemD.step n ct s1 a = some s2 → After n ct s s2

end Verif.MuxD
