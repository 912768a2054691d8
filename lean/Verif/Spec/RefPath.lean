import Verif.Model.RefPath
import Verif.Lemmas.EventLoop

/-! Vocabulary for C78: what users of a publisher with a pool rely on, whatever middleware the events travel through. -/

namespace Verif.RefP
open Verif Verif.Pool

variable {T : Type} {C : Chan Tag}

structure Sound (c : Cfg T) (s : St T C) : Prop where
  /-- Whatever a listener reads, when it is called or later through a `shared_ptr` it kept, is the value written for that publication: the event
  given to `publish` (or what the cloner made of it), or what the caller's function made of an initialized object. -/
  received : ∀ k v, (k, v) ∈ s.reads → ∃ call, s.pubs[k]? = some (call, v) ∧ ∃ d, v = (match call with
      | .publish e => (match c.pub.cloner with | none => e | some cl => cl e d)
      | .process f => f ((match c.pub.initF with | none => id | some i => i) d))
  /-- As long as the middleware or a listener holds a `shared_ptr` to an event, its content is the value published. -/
  unchanged : ∀ o k, (o, k) ∈ s.heldEvents ++ s.kept → ∃ call, s.pubs[k]? = some (call, s.content o)
  /-- While a publisher thread writes into an object, nobody else holds it: not the pool, not the middleware, no listener, no other thread. -/
  writer : ∀ t o call, t < c.threads → s.pc t = .got o call → (∀ p, s.pool = some p → o ∉ p.stack) ∧ (∀ x ∈ s.heldEvents ++ s.kept, x.1 ≠ o) ∧
      ∀ u, u < c.threads → u ≠ t → (s.pc u).obj ≠ some o
  /-- A pooled object (of the first 65535) is in the pool, once, exactly when nobody holds a `shared_ptr` to it; none is deleted. -/
  pooled : ∀ p, s.pool = some p → p.stack.Nodup ∧ p.deleted = [] ∧ ∀ o, o < min c.pub.poolSize 65535 → (o ∈ p.stack ↔
      (∀ x ∈ s.heldEvents ++ s.kept, x.1 ≠ o) ∧ ∀ t, t < c.threads → (s.pc t).obj ≠ some o)

/-- All objects of the pool (that can be taken at all) are in it. -/
def AllBack (c : Cfg T) (s : St T C) : Prop := ∀ p, s.pool = some p → ∀ o, o < min c.pub.poolSize 65535 → o ∈ p.stack

/-- Nobody outside the middleware holds an event. -/
def Quiet (c : Cfg T) (s : St T C) : Prop := (∀ t, t < c.threads → s.pc t = .idle) ∧ s.kept = []

/-- Event loop: fewer than 2^31 events, started while no publisher is half way through `publish` (the assumptions of C30). -/
def LoopOk {k : Nat} (s : (evLoop k).S) (a : (evLoop k).A) : Prop := EvLoop.OkAct (D := Tag) s a

/-- Event loop: moreover listeners do not throw, and the loop is started only when it has dealt with all events accepted before. -/
def LoopCalm {k : Nat} (s : (evLoop k).S) (a : (evLoop k).A) : Prop :=
  EvLoop.OkAct (D := Tag) s a ∧ a ≠ EvLoop.Act.throw ∧ (a = EvLoop.Act.start → (s : EvLoop.St Tag).ring.seq 0 = (s : EvLoop.St Tag).ring.cursor)

/-- Concurrent queue: no two threads enqueue with the producer token at the same time. -/
def TokenOk {d : Bool} (s : (concQ d).S) (_ : (concQ d).A) : Prop := ¬ (s : CqP.St Tag).cq.TokenRace

/-- Concurrent queue: moreover it refuses events when it holds `B`. -/
def TokenBound {d : Bool} (B : Nat) (s : (concQ d).S) (a : (concQ d).A) : Prop :=
  ¬ (s : CqP.St Tag).cq.TokenRace ∧ ∀ t, a = CqP.Act.cq (.enq t true) → (s : CqP.St Tag).cq.q.length < B

end Verif.RefP
