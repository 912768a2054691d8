import Verif.Basic

/-!
Constructing objects that hand themselves to other threads in their constructor: by registering a callback that is bound to `this`, or by starting a
thread.  A constructor is written down as the list of the actions it performs that matter to the others: in C++ the base classes are constructed first, then
the pointer to the virtual functions is set to the class under construction, then its members are constructed in the order of their declaration, then the body
of the constructor runs.  From the registration on, calls may arrive on any number of threads, at any moment.

A virtual call goes to the class whose construction has been reached (`level`: 0 for the base class, 1 for the derived one).  Using a part that has not been
constructed is undefined behaviour (`bad`).  Simplifications: what a call does is the set of parts it uses and whether it runs under the mutex of the
object; calls through an emitter and accesses to the pointer to the virtual functions are atomic steps (in C++ the latter is a data race in itself); the
constructor is taken to finish (exceptions: C65).
-/

namespace Verif.Construct
open Verif

/-- Where calls come from. -/
inductive Src where
  /-- deliveries of replies -/
  | reply
  /-- system events -/
  | status
  /-- the external emitter of an event loop -/
  | emission
  /-- the thread the constructor started -/
  | thread
  /-- the program, once it has the object -/
  | user
  deriving DecidableEq, Repr

/-- The parts of the objects. -/
inductive Mem where
  | publisher | subscriber | correlation | name | requests | mutex
  | service | derived
  /-- the body of a pure virtual function: never there -/
  | pure
  | emitter | external | eventName | listener | listenerId
  | ring | handler | started | task | processor
  | zmqSubscriber | decorated | zmqPublisher | topic | key | period | timestamp | mapper | isLocal | poller
  deriving DecidableEq, Repr

/-- Actions of a constructor. -/
inductive CAct where
  /-- part `m` is constructed -/
  | init (m : Mem)
  /-- virtual calls go to the next class from here on -/
  | level
  /-- calls from `t` are possible from here on -/
  | opened (t : Src)
  /-- the constructor uses part `m` -/
  | use (m : Mem)
  deriving DecidableEq, Repr

/-- What a call does: the parts it uses; `locked`: under the mutex of the object. -/
structure Doing where
  uses : List Mem
  locked : Bool
  deriving DecidableEq, Repr

/-- A class: what a call from `t` does when the construction has reached a level. -/
abbrev Cls := Src → Nat → Doing

structure St where
  rest : List CAct
  made : List Mem
  level : Nat
  opened : List Src
  /-- calls in progress: by thread, where they come from, and the level they found -/
  pc : Nat → Option (Src × Nat)
  /-- thread that holds the mutex of the object -/
  owner : Option Nat
  /-- calls so far -/
  calls : List (Src × Nat)
  bad : Bool

def St.start (prog : List CAct) : St := ⟨prog, [], 0, [], fun _ => none, none, [], false⟩

inductive Act where
  /-- next action of the constructor -/
  | ctor
  /-- a call from `t` begins on thread `k` -/
  | enter (k : Nat) (t : Src)
  /-- it uses part `m` -/
  | tuse (k : Nat) (m : Mem)
  /-- it returns -/
  | leave (k : Nat)
  deriving DecidableEq, Repr

def step (c : Cls) (s : St) : Act → Option St
  | .ctor => match s.rest with
    | [] => none
    | .init m :: p => some { s with rest := p, made := m :: s.made }
    | .level :: p => some { s with rest := p, level := s.level + 1 }
    | .opened t :: p => some { s with rest := p, opened := t :: s.opened }
    | .use m :: p => some { s with rest := p, bad := s.bad || decide (m ∉ s.made) }
  | .enter k t =>
    if t ∈ s.opened ∧ s.pc k = none then
      if (c t s.level).locked then
        if s.owner = none then some { s with pc := upd s.pc k (some (t, s.level)), owner := some k, calls := (t, s.level) :: s.calls } else none
      else some { s with pc := upd s.pc k (some (t, s.level)), calls := (t, s.level) :: s.calls }
    else none
  | .tuse k m => match s.pc k with
    | some (t, l) => if m ∈ (c t l).uses then some { s with bad := s.bad || decide (m ∉ s.made) } else none
    | none => none
  | .leave k => match s.pc k with
    | some (t, l) => some { s with pc := upd s.pc k none, owner := if (c t l).locked then none else s.owner }
    | none => none

/-- Executions in which every step satisfies `P`. -/
inductive Reach (c : Cls) (P : St → Act → Prop) (s₀ : St) : St → Prop
  | refl : Reach c P s₀ s₀
  | step {s s' : St} {a : Act} : Reach c P s₀ s → P s a → step c s a = some s' → Reach c P s₀ s'

def run (c : Cls) (s : St) : List Act → Option St
  | [] => some s
  | a :: as => match step c s a with
    | none => none
    | some s' => run c s' as

/-! ### The constructors -/

/-- `CallbackHandler` (core/modules/core/include/klepsydra/core/callback_handler.h 95-107, members 158-165; the unused ones are left out): the members, then
the listener is registered. -/
def callbackBase : List CAct := [.init .publisher, .init .subscriber, .init .correlation, .init .name, .init .requests, .use .subscriber, .opened .reply]

/-- As an object of its own. -/
def callbackHandler : List CAct := callbackBase ++ [.opened .user]

/-- `onReplyReceived` (126-140) and `requestAndReply` (116-123). -/
def callbackCls : Cls := fun t _ => match t with
  | .reply => ⟨[.requests, .correlation, .name, .publisher], false⟩
  | .user => ⟨[.requests, .publisher], false⟩
  | _ => ⟨[], false⟩

/-- `MultiThreadCallbackHandler` (213-220, 244): base class, then its functions, then its mutex. -/
def multiHandler : List CAct := callbackBase ++ [.level, .init .mutex, .opened .user]

/-- Its `onReplyReceived` (237-241) and `requestAndReply` (229-234) lock the mutex and call those of the base class. -/
def multiCls : Cls := fun t l => if l = 0 then callbackCls t l else match t with
  | .reply => ⟨[.mutex, .requests, .correlation, .name, .publisher], true⟩
  | .user => ⟨[.mutex, .requests, .publisher], true⟩
  | _ => ⟨[], false⟩

/-- `ManagedService` (core/modules/core/include/klepsydra/core/manage_service.h 56-66) as the base class of a service of the program; `slave`: the subscriber
is not null. -/
def managedService (slave : Bool) : List CAct :=
  [.init .service] ++ (if slave then [.opened .status] else []) ++ [.level, .init .derived, .opened .user]

/-- `onSystemMessageReceived` (71-82) calls `startup()` and `shutdown()` of the sdk, which call `start()` and `stop()`; those are pure virtual in `Service`,
and defined by the derived class. -/
def managedCls : Cls := fun t l => match t with
  | .status => if l = 0 then ⟨[.service, .pure], false⟩ else ⟨[.service, .derived], false⟩
  | .user => ⟨[.service, .derived], false⟩
  | _ => ⟨[], false⟩

/-- `EventLoopSubscriber` (high_performance/modules/high_performance/include/klepsydra/high_performance/event_loop_subscriber.h 55-75, members 80-83): the id
is stored after the listener has been registered. -/
def eventLoopSubscriber : List CAct :=
  [.init .emitter, .level, .init .external, .init .eventName, .init .listener, .use .external, .use .eventName, .use .listener, .opened .emission,
   .init .listenerId, .opened .user]

/-- The listener (64-71); the program registers listeners and destroys the object (77). -/
def eventLoopSubscriberCls : Cls := fun t _ => match t with
  | .emission => ⟨[.emitter, .eventName], false⟩
  | .user => ⟨[.emitter, .external, .listenerId], false⟩
  | _ => ⟨[], false⟩

/-- `DataMultiplexerSubscriber` (data_multiplexer_subscriber.h 71-110, members 125-136). -/
def dataMuxSubscriber : List CAct :=
  [.init .emitter, .level, .init .ring, .use .emitter, .init .handler, .init .started, .init .task, .use .ring, .use .handler, .init .processor,
   .opened .thread, .use .started, .use .processor, .opened .user]

/-- The task of the thread (82-88) and the event handler; the program. -/
def dataMuxSubscriberCls : Cls := fun t _ => match t with
  | .thread => ⟨[.processor, .ring, .handler, .emitter], false⟩
  | .user => ⟨[.emitter, .started, .processor], false⟩
  | _ => ⟨[], false⟩

/-- `ZMQEnv` from a file (core/modules/zmq_mdlw/src/zmq_env.cpp 28-51; members zmq_env.h 198-207): the poller is started last. -/
def zmqEnvFile : List CAct :=
  [.init .zmqSubscriber, .init .decorated, .init .zmqPublisher, .init .topic, .init .key, .init .period, .init .timestamp, .init .mapper, .init .isLocal,
   .use .key, .use .timestamp, .use .period, .init .poller, .opened .thread, .opened .user]

/-- `ZMQEnv` around an environment (62-86): topic, key and period are empty first, then read from the environment. -/
def zmqEnvAround : List CAct :=
  [.init .zmqSubscriber, .init .decorated, .init .zmqPublisher, .init .topic, .init .key, .init .timestamp, .init .mapper, .init .isLocal,
   .use .decorated, .use .topic, .use .key, .init .period, .use .key, .use .timestamp, .use .period, .init .poller, .opened .thread, .opened .user]

/-- `poll` (209-235); the setters and getters of the program. -/
def zmqEnvCls : Cls := fun t _ => match t with
  | .thread => ⟨[.poller, .zmqSubscriber, .decorated], false⟩
  | .user => ⟨[.decorated, .zmqPublisher, .topic, .key, .timestamp, .mapper, .poller, .isLocal], false⟩
  | _ => ⟨[], false⟩

end Verif.Construct
