import Verif.Model.ZmqEnd
import Verif.Spec.Fair

/-! What is expected of a path through ZeroMQ. -/

namespace Verif.ZmqE
open Verif Verif.Fair

variable {F K β : Type} [DecidableEq F]

/-- The mapper carries the event `k`: whatever was in the objects used, decoding what was encoded gives `k`. -/
def Carries (m : Channel.Mapper K F) (k : K) : Prop := ∀ b c k0, m.enc k b = some c → m.dec c k0 = some k

/-- The (topic, event) pairs whose publication has been completed, in order. -/
def St.published (s : St F K β) : List (F × K) := s.sent.map (fun m => (m.topic, m.event))

/-- The (topic, event) pairs published internally at the receiver, in order. -/
def St.received (s : St F K β) : List (F × K) := s.out.map (fun x => (x.2.1, x.2.2))

/-- Those of one topic. -/
def ofTopic (t : F) (l : List (F × K)) : List (F × K) := l.filter (fun x => decide (x.1 = t))

/-- All events published so far can be carried. -/
def AllCarried (g : Cfg F K) (s : St F K β) : Prop := ∀ m ∈ s.sent, Carries (g.mp m.topic) m.event

/-- Publisher `p` was the one registered for topic `t` whenever a message of the topic was taken from the socket. -/
def AlwaysRegistered (s : St F K β) (t : F) (p : β) : Prop := ∀ c r, .dispatched t c r ∈ s.rx.hist → r = some p

/-- Nothing is on its way and the poller holds nothing. -/
def Quiet (s : St F K β) : Prop := s.net = [] ∧ s.rx.frames = [] ∧ s.rx.poll = .top

/-! ### Infinite executions -/

structure Run (g : Cfg F K) (σ : Nat → St F K β) (α : Nat → Option (Act F K β)) : Prop where
  start : Reach g (σ 0)
  exec : Exec (step g) σ α

/-- The network moves: a message on its way is handled again and again. -/
def NetFair (σ : Nat → St F K β) (α : Nat → Option (Act F K β)) : Prop := FairTo (fun s : St F K β => s.net ≠ []) (fun a => a = .deliver) σ α

/-- A step of the polling thread. -/
def PollTurn (a : Act F K β) : Prop := a = .rx .recvTopic ∨ a = .rx .recvContent ∨ a = .rx .execute ∨ ∃ k0, a = .publish k0

/-- The polling thread has something to do: it is inside an iteration, or frames wait and it runs. -/
def PollBusy (s : St F K β) : Prop := s.rx.frames ≠ [] ∨ (s.rx.poll matches .top) = false

def PollFair (σ : Nat → St F K β) (α : Nat → Option (Act F K β)) : Prop := FairTo PollBusy PollTurn σ α

/-- Nothing goes wrong in the whole execution: no message is lost by ZeroMQ, publications do not overlap, no function throws or calls back into the
poller, the poller is not stopped. -/
structure Smooth (g : Cfg F K) (σ : Nat → St F K β) (α : Nat → Option (Act F K β)) : Prop where
  carried : ∀ i, AllCarried g (σ i)
  noOverlap : ∀ i, (σ i).overlap = false
  noDrop : ∀ i, (σ i).dropped = 0
  noFail : ∀ i, (σ i).failed = 0
  noReenter : ∀ i, α i ≠ some (.rx .reenter)
  noStop : ∀ i, α i ≠ some (.rx .stop)
  running : (σ 0).rx.running = true ∧ (σ 0).rx.poll ≠ .relock ∧ (σ 0).rx.poll ≠ .exited

end Verif.ZmqE
