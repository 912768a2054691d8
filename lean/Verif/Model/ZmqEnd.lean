import Verif.Model.Zmq
import Verif.Model.Channel

/-!
Model of a path through ZeroMQ, from a publisher of `ToZMQMiddlewareProvider` (ZMQ/to_zmq_middleware_provider.h) to the internal publishers of a
`FromZmqChannel` (ZMQ/from_zmq_middleware_provider.h 49-105) on the other side.

* The sender: any number of threads that publish events on any number of topics of one provider, hence through one shared `zmq::socket_t`
  (to_zmq_middleware_provider.h 69-72, 102, 131, 159: every channel keeps a reference to it).  A call runs the mapper into an object of the pool
  (to_middleware_channel.h 72-96; any old content) and then `internalPublish` of the channel: two calls of `send`, the first with
  `sndmore`, without a mutex.
* ZeroMQ is external: frames sent with `sndmore` wait in the socket, a frame sent without completes the message.  Messages travel in order; a
  message may be lost as a whole (high water mark, `drop`); the receiving socket takes a message only if its first frame matches a
  subscription (`sub`).
* The receiver: `Zmq.St`, whose functions decode the content (from_middleware_channel.h 56) and publish the event internally.

Simplified: one receiving socket, its subscriptions fixed.  The mappers are a parameter (`mp t` is the one of the type published on topic `t`).
-/

namespace Verif.ZmqE
open Verif

/-- `mp t` is the mapper of topic `t`, `sub x`: the receiving socket has a subscription that is a prefix of the frame `x`. -/
structure Cfg (F K : Type) where
  mp : F → Channel.Mapper K F
  sub : F → Bool

/-- A completed publication. -/
structure Msg (F K : Type) where
  topic : F
  content : F
  event : K
  deriving DecidableEq, Repr

/-- A publishing thread. -/
inductive PPc (F K : Type) where
  | idle
  /-- encoded, about to send the topic -/
  | sending (t : F) (k : K) (c : F)
  /-- topic sent, about to send the content -/
  | topicSent (t : F) (k : K) (c : F)
  deriving DecidableEq, Repr

structure St (F K β : Type) where
  pub : Nat → PPc F K
  /-- the frames of the unfinished message in the sending socket -/
  part : List F
  /-- messages on their way -/
  net : List (List F)
  rx : Zmq.St F β
  /-- ghost: publications that have been completed, in order -/
  sent : List (Msg F K)
  /-- ghost: events published internally at the receiver: publisher, topic, event -/
  out : List (β × F × K)
  /-- ghost: number of publications in progress -/
  active : Nat
  /-- ghost: at some moment two publications were in progress -/
  overlap : Bool
  /-- ghost: messages lost by ZeroMQ -/
  dropped : Nat
  /-- ghost: exceptions thrown by a function of the receiver (decoding, or the internal publisher) -/
  failed : Nat

def St.init {F K β : Type} : St F K β := ⟨fun _ => .idle, [], [], Zmq.St.init, [], [], 0, false, 0, 0⟩

inductive Act (F K β : Type) where
  /-- thread `u` calls `publish` for event `k` on topic `t`; `b` is the old content of the object of the pool -/
  | begin (u : Nat) (t : F) (k : K) (b : F)
  | send1 (u : Nat)
  | send2 (u : Nat)
  | drop
  | deliver
  /-- a step of the poller or of a client of it -/
  | rx (a : Zmq.Act F β)
  /-- the function decodes and publishes; `k0` is the old content of the object it decodes into -/
  | publish (k0 : K)
  /-- the same, but an exception leaves the internal publisher, after it has taken the event (`true`) or before -/
  | fail (k0 : K) (taken : Bool)

variable {F K β : Type} [DecidableEq F]

def step (g : Cfg F K) (s : St F K β) : Act F K β → Option (St F K β)
  -- to_middleware_channel.h 72-96; if the mapper throws, `processAndPublish` is left by the exception and nothing is sent
  | .begin u t k b =>
    match s.pub u with
    | .idle => match (g.mp t).enc k b with
      | some c => some { s with pub := upd s.pub u (.sending t k c), active := s.active + 1, overlap := s.overlap || decide (0 < s.active) }
      | none => some s
    | _ => none
  -- `_publisher.send(topic, sndmore)`: json_to_zmq_channel.h 68, binary_to_zmq_channel.h 73, void_caster_to_zmq_channel.h 63
  | .send1 u =>
    match s.pub u with
    | .sending t k c => some { s with pub := upd s.pub u (.topicSent t k c), part := s.part ++ [t] }
    | _ => none
  -- `_publisher.send(message)`: json_to_zmq_channel.h 70, binary_to_zmq_channel.h 75, void_caster_to_zmq_channel.h 65
  | .send2 u =>
    match s.pub u with
    | .topicSent t k c => some { s with pub := upd s.pub u .idle, part := [], net := s.net ++ [s.part ++ [c]],
                                        sent := s.sent ++ [⟨t, c, k⟩], active := s.active - 1 }
    | _ => none
  | .drop =>
    match s.net with
    | _ :: r => some { s with net := r, dropped := s.dropped + 1 }
    | [] => none
  | .deliver =>
    match s.net with
    | (x :: fs) :: r =>
      if g.sub x then (Zmq.step s.rx (.arrive (x :: fs))).map (fun q => { s with net := r, rx := q })
      else some { s with net := r }
    | _ => none
  -- messages arrive through `deliver` only; a function ends through `publish` or `fail`
  | .rx a =>
    match a with
    | .arrive _ => none
    | .return => none
    | .throw => none
    | a => (Zmq.step s.rx a).map (fun q => { s with rx := q })
  -- `onMiddlewareMessage`, from_middleware_channel.h 56: an exception of the mapper leaves the function
  | .publish k0 =>
    match s.rx.poll with
    | .calling t c p => match (g.mp t).dec c k0 with
      | some k => (Zmq.step s.rx .return).map (fun q => { s with rx := q, out := s.out ++ [(p, t, k)] })
      | none => (Zmq.step s.rx .throw).map (fun q => { s with rx := q, failed := s.failed + 1 })
    | _ => none
  | .fail k0 taken =>
    match s.rx.poll with
    | .calling t c p => match (g.mp t).dec c k0 with
      | some k => (Zmq.step s.rx .throw).map (fun q => { s with rx := q, out := if taken then s.out ++ [(p, t, k)] else s.out, failed := s.failed + 1 })
      | none => (Zmq.step s.rx .throw).map (fun q => { s with rx := q, failed := s.failed + 1 })
    | _ => none

inductive Reach (g : Cfg F K) : St F K β → Prop where
  | init : Reach g St.init
  | step {s s'} (a : Act F K β) (h : Reach g s) (hs : step g s a = some s') : Reach g s'

def run (g : Cfg F K) (s : St F K β) : List (Act F K β) → Option (St F K β)
  | [] => some s
  | a :: as => match step g s a with
    | none => none
    | some s' => run g s' as

theorem Reach.of_run {g : Cfg F K} : ∀ (as : List (Act F K β)) {s s' : St F K β}, Reach g s → run g s as = some s' → Reach g s'
  | [], _, _, h, e => by cases e; exact h
  | a :: as, s, s', h, e => by
    simp only [run] at e
    split at e
    · cases e
    · rename_i s1 h1
      exact of_run as (h.step a h1) e

end Verif.ZmqE
