import Verif.Model.MemDispatch
import Verif.Spec.ElDispatch

/-!
Specification for C81.  The histories are those of Spec/ElDispatch.lean and have to conform to the same automaton (`ElD.Conforms`): exactly the listeners
registered when an event is taken up are called, each once, in the order of registration, with that event, before the next event is taken up.
-/

namespace Verif.MemD
open Verif ElD

variable {D : Type} {C : Chan D}

/-- How the provider has to be used: a listener name is not registered twice (C20); emitters for a single listener get a single listener, ids do not wrap round;
and the conditions of the middleware. -/
def Ok (s : St C) : Act C → Prop
  | .reg l => C.may s.ch ∧ s.map l = none ∧ s.em.room
  | .once => C.may s.ch ∧ s.em.room
  | _ => C.may s.ch

inductive Reach (n : String) (c : Bool) (kind : Kind) : St C → Prop where
  | init : Reach n c kind (St.init C kind)
  | step {s s' a} : Reach n c kind s → Ok s a → step n c s a = some s' → Reach n c kind s'

/-- The events taken up, in order. -/
def takenUp (h : List (Event D)) : List D := h.filterMap fun | .start _ (some (.ev d)) => some d | _ => none

/-- What the listener of registration `no` was called with, in order. -/
def gets (no : Nat) (h : List (Event D)) : List D := h.filterMap fun | .call no' (.ev d) _ => if no' = no then some d else none | _ => none

/-- The two middlewares. -/
inductive Mdlw where
  /-- `BasicMiddlewareProvider` with queue size `n` -/
  | basic (discard : Bool) (n : Nat)
  | concurrent (discard : Bool)

def Mdlw.chan (D : Type) : Mdlw → Chan D
  | .basic d n => MemD.basic D d n
  | .concurrent d => MemD.concurrent D d

/-- Is it a middleware whose publishers throw away old events when the queue is full? -/
def Mdlw.discards : Mdlw → Bool
  | .basic d _ => d
  | .concurrent d => d

/-- The events accepted, in the order of acceptance. -/
def Mdlw.accepted : (m : Mdlw) → (m.chan D).σ → List D
  | .basic .., s => MemP.St.came s
  | .concurrent _, s => (CqP.St.cq s).published

/-- The events in the queue, oldest first. -/
def Mdlw.queued : (m : Mdlw) → (m.chan D).σ → List D
  | .basic .., s => (MemP.St.bm s).sq.q
  | .concurrent _, s => (CqP.St.cq s).q

/-- The events that have left the queue, in order, taken by the poller (`true`) or discarded by a publisher (`false`). -/
def Mdlw.gone : (m : Mdlw) → (m.chan D).σ → List (D × Bool)
  | .basic .., s => MemP.St.left s
  | .concurrent _, s => (CqP.St.cq s).taken.map fun x => (x.2, x.1.isNone)

/-- Those taken by the poller. -/
def Mdlw.passed (m : Mdlw) (s : (m.chan D).σ) : List D := ((m.gone s).filter (·.2)).map (·.1)

/-- Is it a restart of the poller? -/
def Mdlw.restart : (m : Mdlw) → Act (m.chan D) → Prop
  | .basic .., .ch (.restart : MemP.Act D) => True
  | .concurrent _, .ch (.restart : CqP.Act D) => True
  | _, _ => False

end Verif.MemD
