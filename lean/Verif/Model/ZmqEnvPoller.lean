import Verif.Basic
import Verif.Spec.ZmqEnvPoller

/-!
The thread of `kpsr::zmq_mdlw::ZMQEnv` (core/modules/zmq_mdlw/src/zmq_env.cpp 53-60, 171-235): `ZMQConfigurationPoller::start`, `stop`, `poll`, and the
destructor of the environment, at the level of the frames on the socket.

ZeroMQ is external: the socket is the queue of the frames not yet received, a message adds all its frames at once; `zmq::poll` returns at the latest after the
poll period (`timeout`), the two `recv` without flags wait for a frame.  What `cereal` makes of a content is the parameter `decode` (`none`: it throws), what
`updateConfiguration` does with the text is the parameter `adopt` (Model/EnvFile.lean).  Simplifications: the environment is used by this thread only (races with the
program: C85); errors of `zmq::poll` (-1) are a timeout.
-/

namespace Verif.ZEP
open Verif

structure Cfg (F E K D : Type) where
  decode : F → Option (Upd K D)
  adopt : E → D → E
  /-- `_zmqKey` -/
  key : K
  /-- `_sourceId` -/
  me : Nat

/-- The polling thread. -/
inductive Pc (F : Type) where
  /-- at the test of `_running` (196) -/
  | top
  /-- between the two `recv` (218, 219) -/
  | haveTopic (t : F)
  | ended
  /-- the process was terminated -/
  | dead
  deriving DecidableEq, Repr

/-- The program. -/
inductive Ctl where
  | uses
  /-- in the destructor, at `join` (206) -/
  | joining
  | gone
  deriving DecidableEq, Repr

structure St (F E : Type) where
  socket : List F
  running : Bool
  pc : Pc F
  ctl : Ctl
  env : E
  /-- history: the frames that arrived, the pairs that were received -/
  arrived : List F
  taken : List (F × F)

/-- After the constructor. -/
def St.init {F E : Type} (e : E) : St F E := ⟨[], true, .top, .uses, e, [], []⟩

inductive Act (F : Type) where
  | arrive (parts : List F)
  /-- `zmq::poll` finds nothing (212-215) -/
  | timeout
  | recvTopic
  | recvContent
  /-- the loop ends -/
  | leave
  /-- the destructor begins: `_running = false` (204) -/
  | destroy
  /-- `join` returns -/
  | joined
  deriving DecidableEq, Repr

variable {F E K D : Type} [DecidableEq K]

def step (g : Cfg F E K D) (s : St F E) : Act F → Option (St F E)
  | .arrive ps => match s.pc with
    | .dead => none
    | _ => some { s with socket := s.socket ++ ps, arrived := s.arrived ++ ps }
  | .timeout => match s.pc, s.socket with
    | .top, [] => if s.running then some s else none
    | _, _ => none
  | .recvTopic => match s.pc, s.socket with
    | .top, t :: r => if s.running then some { s with pc := .haveTopic t, socket := r } else none
    | _, _ => none
  | .recvContent => match s.pc, s.socket with
    | .haveTopic t, c :: r =>
      match g.decode c with
      -- 224: nothing catches the exception in the lambda of the thread (194-198)
      | none => some { s with pc := .dead, socket := r, taken := s.taken ++ [(t, c)] }
      -- 225-230; the topic is not looked at
      | some u => some { s with
          pc := .top, socket := r, taken := s.taken ++ [(t, c)]
          env := if u.key = g.key ∧ u.source ≠ g.me then g.adopt s.env u.data else s.env }
    | _, _ => none
  | .leave => match s.pc with
    | .top => if s.running then none else some { s with pc := .ended }
    | _ => none
  | .destroy => match s.pc, s.ctl with
    | .dead, _ => none
    | _, .uses => some { s with running := false, ctl := .joining }
    | _, _ => none
  | .joined => match s.pc, s.ctl with
    | .ended, .joining => some { s with ctl := .gone }
    | _, _ => none

/-- Executions in which the messages that arrive satisfy `P`. -/
inductive Reach (g : Cfg F E K D) (P : List F → Prop) (e : E) : St F E → Prop
  | init : Reach g P e (St.init e)
  | step {s s' : St F E} {a : Act F} : Reach g P e s → (∀ ps, a = .arrive ps → P ps) → step g s a = some s' → Reach g P e s'

def run (g : Cfg F E K D) (s : St F E) : List (Act F) → Option (St F E)
  | [] => some s
  | a :: as => match step g s a with
    | none => none
    | some s' => run g s' as

end Verif.ZEP
