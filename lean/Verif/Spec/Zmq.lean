import Verif.Basic

/-! Specification of topic dispatch.  `F` is the type of message frames (topics and contents are byte strings), `β` of functions. -/

namespace Verif.Zmq

/-- What has happened, in order. -/
inductive Ev (F β : Type) where
  /-- `registerToTopic(t, f)` took effect -/
  | registered (t : F) (f : β)
  /-- `unregisterFromTopic(t)` took effect -/
  | unregistered (t : F)
  /-- a message with topic `t` and content `c` was given to a function, or dropped -/
  | dispatched (t c : F) (to? : Option β)
  deriving DecidableEq, Repr

variable {F β : Type} [DecidableEq F]

/-- Effect of one event on the function registered for `t`. -/
def Ev.effect (t : F) : Ev F β → Option β → Option β
  | .registered t' f, r => if t' = t then some f else r
  | .unregistered t', r => if t' = t then none else r
  | .dispatched _ _ _, r => r

/-- The function registered for `t` after a history: the last registration, unless unregistered since. -/
def registeredFor (t : F) (h : List (Ev F β)) : Option β := h.foldl (fun r e => e.effect t r) none

/-- Messages dispatched in a history. -/
def messages : List (Ev F β) → List (F × F)
  | [] => []
  | .dispatched t c _ :: h => (t, c) :: messages h
  | _ :: h => messages h

/-- Cutting a sequence of frames in pairs. -/
def pairUp : List F → List (F × F)
  | t :: c :: r => (t, c) :: pairUp r
  | _ => []

/-- Frames of two-part messages. -/
def framesOf (ms : List (F × F)) : List F := ms.flatMap (fun m => [m.1, m.2])

end Verif.Zmq
