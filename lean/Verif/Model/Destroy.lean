import Verif.Basic

/-!
Destroying the middleware objects while threads of theirs exist.  A destructor is written down as the list of the actions it performs that
matter to other threads: in C++ the body of the destructor runs first, then the members are destroyed in the reverse order of their declaration,
then the base classes.  The threads of the object run at the same time and use its members.

Using a member after its destruction is undefined behaviour (`bad`); destroying a `std::thread` that is joinable ends the process (`term`).
A thread leaves its loop only when it was told to (flag cleared, processor halted) or if it is a one-shot thread; that telling a thread is noticed is
the subject of C26, C46 and taken for granted here.  The application itself does not use the object during its destruction.
-/

namespace Verif.Destroy
open Verif

/-- The threads of the classes below. -/
inductive Thr where
  /-- thread of a poller -/
  | poller
  /-- thread of the event loop -/
  | loop
  /-- thread of a scheduled task -/
  | task (k : String)
  /-- thread of a subscriber of the data multiplexer -/
  | sub (k : String)
  deriving DecidableEq, Repr

/-- The parts of the objects. -/
inductive Mem where
  | queue | token | emitter | subscriber | publisher | pollerDerived | pollerBase
  | processor | handler | ring | model | env | mapper
  | taskFn (k : String) | taskFlag (k : String)
  | subOf (k : String) | pubOf (k : String)
  | processorOf (k : String) | handlerOf (k : String) | emitterOf (k : String)
  deriving DecidableEq, Repr

/-- Actions of a destructor. -/
inductive DAct where
  /-- tells thread `t` to end -/
  | clear (t : Thr)
  /-- `if (thread.joinable()) thread.join()` -/
  | join (t : Thr)
  /-- destructor of the `std::thread` object -/
  | thread (t : Thr)
  /-- member `m` is destroyed -/
  | free (m : Mem)
  /-- the destructor uses member `m` -/
  | use (m : Mem)
  deriving DecidableEq, Repr

structure St where
  rest : List DAct
  freed : List Mem
  told : List Thr
  /-- threads that run -/
  live : List Thr
  /-- threads with a joinable `std::thread` object -/
  joinable : List Thr
  bad : Bool
  term : Bool

def St.start (prog : List DAct) (live joinable : List Thr) : St := ⟨prog, [], [], live, joinable, false, false⟩

inductive Act where
  /-- next action of the destructor -/
  | dtor
  /-- thread `t` uses member `m` -/
  | tuse (t : Thr) (m : Mem)
  /-- thread `t` ends -/
  | tend (t : Thr)
  deriving DecidableEq, Repr

/-- The environment of a destruction: which members the threads use, which threads end by themselves. -/
structure Cls where
  uses : Thr → List Mem
  once : Thr → Bool

def step (c : Cls) (s : St) : Act → Option St
  | .dtor => if s.term then none else match s.rest with
    | [] => none
    | .clear t :: p => some { s with rest := p, told := t :: s.told }
    | .join t :: p =>
      if t ∈ s.joinable then
        if t ∈ s.live then none else some { s with rest := p, joinable := s.joinable.filter (· ≠ t) }
      else some { s with rest := p }
    | .thread t :: p => if t ∈ s.joinable then some { s with term := true } else some { s with rest := p }
    | .free m :: p => some { s with rest := p, freed := m :: s.freed }
    | .use m :: p => some { s with rest := p, bad := s.bad || decide (m ∈ s.freed) }
  | .tuse t m => if s.term = false ∧ t ∈ s.live ∧ m ∈ c.uses t then some { s with bad := s.bad || decide (m ∈ s.freed) } else none
  | .tend t => if s.term = false ∧ t ∈ s.live ∧ (t ∈ s.told ∨ c.once t = true) then some { s with live := s.live.filter (· ≠ t) } else none

inductive Reach (c : Cls) (s₀ : St) : St → Prop
  | refl : Reach c s₀ s₀
  | step {s s' : St} (a : Act) : Reach c s₀ s → step c s a = some s' → Reach c s₀ s'

def run (c : Cls) (s : St) : List Act → Option St
  | [] => some s
  | a :: as => match step c s a with
    | none => none
    | some s' => run c s' as

/-! ### The destructors -/

/-- `InMemoryMiddlewareProvider` (core/modules/mem_mdlw/include/klepsydra/mem_core/in_memory_middleware_provider.h 109-118): members in reverse
order.  `EventEmitterSubscriber` removes all listeners from the emitter (event_emitter_subscriber.h 74); the poller: the part of the derived class
(safe_queue_poller.h 76-77, concurrent_queue_poller.h 85-87) goes first, then the destructor of the base class stops and joins the thread
(in_memory_queue_poller.cpp 51-57). -/
def inMemBase : List DAct :=
  [.use .emitter, .free .subscriber, .free .pollerDerived, .clear .poller, .join .poller, .thread .poller, .free .pollerBase,
   .free .publisher, .free .emitter]

/-- `BasicMiddlewareProvider` (basic_middleware_provider.h 81): the queue is a member of the derived class. -/
def basicProvider : List DAct := .free .queue :: inMemBase

/-- `ConcurrentMiddlewareProvider` (concurrent_middleware_provider.h 92-95). -/
def concurrentProvider : List DAct := .free .token :: .free .queue :: inMemBase

/-- `pollingLoop` and `takeEventFromQueue` (in_memory_queue_poller.cpp 59-65, safe_queue_poller.h 67-74, concurrent_queue_poller.h 74-83). -/
def inMemCls : Cls where
  uses := fun t => match t with | .poller => [.pollerBase, .pollerDerived, .queue, .token, .emitter] | _ => []
  once := fun _ => false

/-- `BasicScheduler` (basic_scheduler.h 38-107): the `ScheduledThread`s of the map; there is no destructor that stops them. -/
def scheduler (tasks : List String) : List DAct :=
  tasks.flatMap fun k => [.free (.taskFn k), .thread (.task k), .free (.taskFlag k)]

/-- `EventLoopMiddlewareProvider` (event_loop_middleware_provider.h 91, 215-224) with `EventLoop` (event_loop.h 152-164), which has no destructor
either; subscribers remove their listener from the emitter (event_loop_subscriber.h 77). -/
def eventLoopProvider (tasks subs pubs : List String) : List DAct :=
  scheduler tasks ++ (subs.flatMap fun k => [.use .emitter, .free (.subOf k)]) ++ (pubs.map fun k => .free (.pubOf k)) ++
  [.thread .loop, .free .processor, .free .handler, .free .emitter, .free .ring]

def eventLoopCls (once : String → Bool) (subs pubs : List String) : Cls where
  uses := fun t => match t with
    | .loop => [.processor, .handler, .emitter, .ring] ++ subs.map .subOf
    | .task k => [.taskFn k, .taskFlag k, .ring] ++ pubs.map .pubOf
    | _ => []
  once := fun t => match t with | .task k => once k | _ => false

/-- `DataMultiplexerMiddlewareProvider` (data_multiplexer_middleware_provider.h 165-176); a subscriber halts its processor and joins
(data_multiplexer_subscriber.h 112-125), its members follow in reverse order (127-136), then its base class. -/
def dataMuxProvider (subs : List String) : List DAct :=
  (subs.flatMap fun k => [.clear (.sub k), .join (.sub k), .thread (.sub k), .free (.handlerOf k), .free (.processorOf k), .use (.emitterOf k), .free (.emitterOf k)]) ++
  [.free .publisher, .free .ring, .free .model]

def dataMuxCls : Cls where
  uses := fun t => match t with | .sub k => [.processorOf k, .handlerOf k, .emitterOf k, .ring] | _ => []
  once := fun _ => false

/-- The constructor of `DataMultiplexerSubscriber` throws when the processor does not start in time (data_multiplexer_subscriber.h 98-109): its
destructor does not run, the members constructed so far are destroyed in reverse order (127-136), then the base class. -/
def dataMuxSubFailed (k : String) : List DAct :=
  [.thread (.sub k), .free (.handlerOf k), .free (.processorOf k), .use (.emitterOf k), .free (.emitterOf k)]

/-- `FromZmqChannel` (core/modules/zmq_mdlw/include/klepsydra/zmq_core/from_zmq_middleware_provider.h, members at the end of the class): the map of
the converters is destroyed before the poller, whose destructor stops and joins the thread (zmq_poller.h 100-106). -/
def fromZmqChannel (topics : List String) : List DAct :=
  (topics.map fun k => .free (.subOf k)) ++ [.clear .poller, .join .poller, .thread .poller, .free .pollerBase]

def fromZmqCls (topics : List String) : Cls where
  uses := fun t => match t with | .poller => .pollerBase :: topics.map .subOf | _ => []
  once := fun _ => false

/-- `ZMQEnv` (core/modules/zmq_mdlw/src/zmq_env.cpp 53-60): the poller is stopped and deleted first. -/
def zmqEnv : List DAct := [.clear .poller, .join .poller, .thread .poller, .free .pollerBase, .free .env, .free .mapper]

def zmqEnvCls : Cls where
  uses := fun t => match t with | .poller => [.pollerBase, .env, .mapper] | _ => []
  once := fun _ => false

end Verif.Destroy
