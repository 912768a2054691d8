import Verif.Basic

/-!
The mutexes of the whole library: which function locks which mutex, in which order, where it reads and writes the data that the mutexes are there for, and where it
runs code it does not know (listeners, publishers, correlation functions and callbacks of the user; copy constructors and destructors of events and of what a listener
captures).  Threads run any functions on any objects,
and that unknown code may call functions of the library again, return or throw.

CORE = /repo/core/modules/core/include/klepsydra/core, SRC = /repo/core/modules/core/src, MEM = /repo/core/modules/mem_mdlw/include/klepsydra/mem_core,
ZMQ = /repo/core/modules/zmq_mdlw/include/klepsydra/zmq_core, WAIT = /repo/high_performance/modules/high_performance/include/klepsydra/high_performance/
disruptor4cpp/wait_strategies.

Simplifications.  Only locking and which data are accessed is modelled; what the functions compute is in the other models.  Atomic variables are left out, and so are
the statistics objects (they belong to the SDK).  Several accesses to the same data in a row are one.  Functions that find nothing to do return after their first
access; only the longer way is in the table, except where an argument says which.  How often a loop runs and which branch is taken are arguments of
the functions here, so every possibility is covered.  A wait on a condition variable releases its mutex, may end at any time and locks the mutex again.  The
recursive mutexes of the wait strategies are treated as ordinary ones: no function locks one of them twice.  Constructors of standard containers and of the
statistics objects of the SDK are taken not to call the library.  Worker threads (of pollers, event loops, multiplexer subscribers, schedulers) run unknown code a
number of times and end; waiting for the end of a worker (`join`) is treated as locking and unlocking a mutex that the worker holds all its life.  (A worker that
joins itself gets an exception in reality, it is blocked here.)  Whether a worker has been asked to end does not matter here: it may end after any round.
-/

namespace Verif.Locks
open Verif

/-- The mutexes, each with the number of the object it belongs to. -/
inductive Mx where
  /-- `SafeEventEmitter::mutex` (CORE/safe_event_emitter.h 276) -/
  | emitter (e : Nat)
  /-- `CoreContainer::_serviceMutex`, … (CORE/core_container.h 140-144) -/
  | services (c : Nat)
  | serviceStats (c : Nat)
  | publications (c : Nat)
  | subscriptions (c : Nat)
  | functions (c : Nat)
  /-- `SafeQueue::m_mutex` (MEM/safe_queue.h 416) -/
  | queue (q : Nat)
  /-- `MemEnv::mutex` (MEM/mem_env.h 126) -/
  | env (n : Nat)
  /-- `MultiThreadCacheListener::_mutex` (CORE/cache_listener.h 197) -/
  | cache (l : Nat)
  /-- `MultiThreadCallbackHandler::_mutex` (CORE/callback_handler.h 244) -/
  | handler (h : Nat)
  /-- `ZMQPoller::mutex` (ZMQ/zmq_poller.h 172) -/
  | poller (p : Nat)
  /-- `mutex_` of the blocking wait strategies (WAIT/blocking_wait_strategy.h 96, lite_blocking_wait_strategy.h 106, timeout_blocking_wait_strategy.h 103) -/
  | strategy (w : Nat)
  /-- not a mutex: held by worker thread `w` from its start to its end -/
  | life (w : Nat)
  deriving DecidableEq, Repr

/-- The data that threads share, each with the number of the object it belongs to. -/
inductive Var where
  /-- `SafeEventEmitter::listeners`, `last_listener` (CORE/safe_event_emitter.h 277-278) -/
  | listeners (e : Nat)
  | lastId (e : Nat)
  /-- `CoreContainer::_managedServices`, `_serviceStats`, `_functionStats`, `_publicationStats`, `_subscriptionStats` (CORE/core_container.h 135-139; `_running` is atomic) -/
  | services (c : Nat)
  | serviceStats (c : Nat)
  | functions (c : Nat)
  | publications (c : Nat)
  | subscriptions (c : Nat)
  /-- `SafeQueue::m_queue`, `m_max_num_items` (MEM/safe_queue.h 415, 419) -/
  | items (q : Nat)
  | bound (q : Nat)
  /-- the four maps of `MemEnv` (MEM/mem_env.h 121-124) -/
  | props (n : Nat)
  /-- the four maps of the `ConfigurationEnvironment` behind a `ZMQEnv` (CORE/configuration_environment.h 178-181, ZMQ/zmq_env.h), for which there is no mutex -/
  | conf (n : Nat)
  /-- `CacheListener::_lastReceivedEvent`, `totalCopyingTime` (CORE/cache_listener.h 113, 116; `counter` is atomic) -/
  | cached (l : Nat)
  | copyTime (l : Nat)
  /-- `CallbackHandler::_requestCallbackVector` (CORE/callback_handler.h 148) -/
  | requests (h : Nat)
  /-- `ZMQPoller::_functionTopicMap` (ZMQ/zmq_poller.h 174) -/
  | topics (p : Nat)
  deriving DecidableEq, Repr

/-- Code the library does not know. -/
inductive User where
  /-- a round of a worker thread: it takes an event and emits it, or runs a task -/
  | worker
  /-- a listener called by an event emitter -/
  | listener
  /-- `publish` of the publisher of a callback handler -/
  | publish
  /-- the correlation function or the callback of a request -/
  | callback
  /-- a function registered at a ZMQ poller -/
  | function
  /-- copy constructor, assignment or destructor of an event or of a callable object -/
  | value
  deriving DecidableEq, Repr

/-- What a function does, as far as locks are concerned. -/
inductive I where
  | acq (m : Mx)
  | rel (m : Mx)
  | user (k : User)
  /-- shared data are read, or written -/
  | acc (x : Var) (write : Bool)
  /-- parked on a condition variable, with its mutex released -/
  | wait
  deriving DecidableEq, Repr

/-- The functions of the library that lock a mutex, access shared data or run unknown code. -/
inductive Fn where
  /-- `SafeEventEmitter`: with a container or without; `emit`: for every listener called, is it a once listener?; `removeAll`: how many listeners have
  statistics -/
  | on (e : Nat) (c : Option Nat)
  | once (e : Nat)
  | removeListener (e : Nat) (c : Option Nat)
  | emit (e : Nat) (once : List Bool)
  | discard (e : Nat)
  | getStats (e : Nat)
  | removeAll (e : Nat) (c : Option Nat) (n : Nat)
  /-- the two emitters without a mutex: how many listeners are called -/
  | emitUnsafe (n : Nat)
  /-- `CoreContainer`; `startStop`: `start()` or `stop()` -/
  | attachService (c : Nat)
  | detachService (c : Nat)
  | attachServiceStats (c : Nat)
  | attachFunction (c : Nat)
  | detachFunction (c : Nat)
  | attachPublication (c : Nat)
  | detachPublication (c : Nat)
  | attachSubscription (c : Nat)
  | detachSubscription (c : Nat)
  | startStop (c : Nat)
  /-- `SafeQueue`: the blocking functions with the number of waits, `try_push` and `force_move_push` and the copy constructor with the number of items copied or
  destroyed -/
  | qPush (q : Nat) (waits : Nat)
  | qPop (q : Nat) (waits : Nat)
  | qTryPush (q : Nat) (items : Nat)
  | qTryPop (q : Nat)
  | qSize (q : Nat)
  | qFull (q : Nat)
  | qCopy (q : Nat) (items : Nat)
  | qMove (q : Nat)
  | qMoveAssign (a b : Nat)
  | qSwap (a b : Nat)
  | qAssign (a b : Nat)
  | qSetBound (q : Nat)
  /-- `MemEnv`: any getter, any setter -/
  | envGet (n : Nat)
  | envSet (n : Nat)
  /-- `ZMQEnv`: any getter, any setter, `loadFile`, and a round of its polling thread with a message (`applied`: of another peer with the same key) -/
  | zenvGet (n : Nat)
  | zenvSet (n : Nat)
  | zenvLoad (n : Nat) (ok : Bool)
  | zenvPoll (n : Nat) (applied : Bool)
  /-- `MultiThreadCacheListener`: an event arrives (`Raw`: as a shared pointer); a getter is called; somebody reads the public member `totalCopyingTime` -/
  | cacheEvent (l : Nat)
  | cacheRaw (l : Nat)
  | cacheGet (l : Nat)
  | cacheTime (l : Nat)
  /-- `MultiThreadCallbackHandler`: `onReplyReceived` with the number of requests tried in vain, and whether one matches; `early`: the reply arrives before the constructor
  has finished or after the destructor has begun -/
  | request (h : Nat)
  | reply (h : Nat) (tried : Nat) (found : Bool)
  | replyEarly (h : Nat) (tried : Nat) (found : Bool)
  /-- `ZMQPoller` -/
  | register (p : Nat)
  | unregister (p : Nat)
  | execute (p : Nat) (found : Bool)
  /-- the blocking wait strategies: `wait_for` with the number of waits, `signal_all_when_blocking` -/
  | waitFor (w : Nat) (waits : Nat)
  | signal (w : Nat)
  /-- stopping a poller, an event loop, a scheduled task or a multiplexer subscriber waits for the end of its worker thread -/
  | join (w : Nat)
  deriving DecidableEq, Repr

abbrev rd (x : Var) : I := .acc x false
abbrev wr (x : Var) : I := .acc x true

/-- A block with a lock guard. -/
def under (m : Mx) (c : List I) : List I := .acq m :: (c ++ [.rel m])

/-- `container->attach(stats)` of a subscription, if there is a container (SRC/core_container.cpp 186-200). -/
def attachTo : Option Nat → List I
  | some c => under (.subscriptions c) [wr (.subscriptions c)]
  | none => []

/-- `container->detach(stats)` of a subscription, if there is a container (SRC/core_container.cpp 202-216). -/
def detachFrom : Option Nat → List I
  | some c => under (.subscriptions c) [wr (.subscriptions c)]
  | none => []

/-- `n` waits on a condition variable of the mutex `m`, which is held before and after; before every wait the condition is checked. -/
def waits (m : Mx) (check : List I) : Nat → List I
  | 0 => []
  | n + 1 => check ++ [.rel m, .wait, .acq m] ++ waits m check n

/-- `n` times some unknown code. -/
def users (k : User) : Nat → List I
  | 0 => []
  | n + 1 => .user k :: users k n

/-- `container->detach` for `n` listeners of the emitter `e`. -/
def detaches (e : Nat) (c : Option Nat) : Nat → List I
  | 0 => []
  | n + 1 => rd (.listeners e) :: detachFrom c ++ detaches e c n

/-- 135-140: the listeners are called without the lock; a once listener is removed when it has returned (88-107). -/
def emitCalls (e : Nat) : List Bool → List I
  | [] => []
  | o :: os => .user .listener :: (if o then under (.emitter e) [rd (.listeners e), wr (.listeners e), .user .value] else []) ++ emitCalls e os

/-- `n` requests are tried. -/
def tries (h : Nat) : Nat → List I
  | 0 => []
  | n + 1 => rd (.requests h) :: .user .callback :: tries h n

/-- `CallbackHandler::onReplyReceived` (CORE/callback_handler.h 126-141). -/
def onReply (h n : Nat) (f : Bool) : List I :=
  tries h n ++ [rd (.requests h)] ++ (if f then [.user .callback, .user .callback, wr (.requests h), .user .value] else [])

/-- The code of a function. -/
def code : Fn → List I
  -- CORE/safe_event_emitter.h 245-275: the container is called and the callback is copied under the lock
  | .on e c => under (.emitter e) ([wr (.lastId e)] ++ attachTo c ++ [.user .value, wr (.listeners e)])
  -- 78-82, 245-275
  | .once e => under (.emitter e) [wr (.lastId e), .user .value, wr (.listeners e)]
  -- 88-107: the container is called and the listener with what it captures is destroyed under the lock
  | .removeListener e c => under (.emitter e) ([rd (.listeners e)] ++ detachFrom c ++ [wr (.listeners e), .user .value])
  -- 115-141: the number of listeners is read without the lock (120); the listeners are copied under the lock and called without it; at the end those removed
  -- meanwhile are destroyed
  | .emit e os => [rd (.listeners e)] ++ under (.emitter e) [rd (.listeners e)] ++ emitCalls e os ++ [.user .value]
  -- 147-169, the number of listeners is read without the lock (149)
  | .discard e => [rd (.listeners e)] ++ under (.emitter e) [rd (.listeners e)] ++ [.user .value]
  -- 177-188, without the lock
  | .getStats e => [rd (.listeners e)]
  -- 190-199, without the lock
  | .removeAll e c n => detaches e c n ++ [wr (.listeners e), .user .value]
  -- CORE/unsafe_multi_listener_event_emitter.h 186-199, unsafe_single_listener_event_emitter.h 130-143
  | .emitUnsafe n => users .listener n
  -- SRC/core_container.cpp 78-92, 94-120: the list of service statistics is changed under the mutex of the services
  | .attachService c | .detachService c => under (.services c) [wr (.services c), wr (.serviceStats c)]
  -- 154-168: and here under the mutex of the service statistics
  | .attachServiceStats c => under (.serviceStats c) [wr (.serviceStats c)]
  -- 122-152
  | .attachFunction c | .detachFunction c => under (.functions c) [wr (.functions c)]
  -- 170-184
  | .attachPublication c => under (.publications c) [wr (.publications c)]
  -- 218-224, without the lock
  | .detachPublication c => [wr (.publications c)]
  -- 186-216
  | .attachSubscription c | .detachSubscription c => under (.subscriptions c) [wr (.subscriptions c)]
  -- 36-76, without the locks
  | .startStop c => [rd (.serviceStats c), rd (.functions c), rd (.publications c), rd (.subscriptions c)]
  -- MEM/safe_queue.h 87-131: push, move_push
  | .qPush q n => under (.queue q) (waits (.queue q) [rd (.items q), rd (.bound q)] n ++ [rd (.items q), rd (.bound q), .user .value, wr (.items q)])
  -- 211-237, 282-327: pop, move_pop, timeout_pop, timeout_move_pop
  | .qPop q n => under (.queue q) (waits (.queue q) [rd (.items q)] n ++ [rd (.items q), .user .value, wr (.items q)])
  -- 138-209: try_push, try_move_push, force_move_push
  | .qTryPush q n => under (.queue q) ([rd (.bound q), rd (.items q)] ++ users .value n ++ [wr (.items q)])
  -- 244-280
  | .qTryPop q => under (.queue q) [rd (.items q), .user .value, wr (.items q)]
  -- 333-347
  | .qSize q => under (.queue q) [rd (.items q)]
  -- 353-357
  | .qFull q => under (.queue q) [rd (.bound q), rd (.items q)]
  -- 68-72: the copy constructor
  | .qCopy q n => under (.queue q) ([rd (.items q)] ++ users .value n)
  -- 62: the move constructor takes the items of the other queue without its lock
  | .qMove q => [wr (.items q)]
  -- 403-412: and so does the move assignment
  | .qMoveAssign a b => under (.queue a) [wr (.items b), wr (.items a), .user .value]
  -- 363-375; nothing happens if it is the same queue
  | .qSwap a b => if a = b then [] else under (.queue a) (under (.queue b) [wr (.items a), wr (.items b)])
  -- 383-396
  | .qAssign a b => if a = b then [] else under (.queue a) (under (.queue b) [rd (.items b), .user .value, wr (.items a), .user .value])
  -- 80, without the lock
  | .qSetBound q => [wr (.bound q)]
  -- /repo/core/modules/mem_mdlw/src/mem_env.cpp 17-79
  | .envGet n => under (.env n) [rd (.props n)]
  -- 81-111
  | .envSet n => under (.env n) [wr (.props n)]
  -- /repo/core/modules/zmq_mdlw/src/zmq_env.cpp 94-124: no mutex
  | .zenvGet n => [rd (.conf n)]
  -- 126-156, 168-178: the property is written, then all are read for the message
  | .zenvSet n => [wr (.conf n), rd (.conf n)]
  -- 158-166
  | .zenvLoad n ok => [wr (.conf n)] ++ if ok then [rd (.conf n)] else []
  -- 208-231, 89-92: called by the polling thread, which the constructor starts (193-199)
  | .zenvPoll n a => if a then [wr (.conf n)] else []
  -- CORE/cache_listener.h 159-163, 72-82
  | .cacheEvent l => under (.cache l) [.user .value, wr (.cached l), .user .value, wr (.copyTime l)]
  -- 169-173, 88-92
  | .cacheRaw l => under (.cache l) [wr (.cached l), .user .value]
  -- 179-194
  | .cacheGet l => under (.cache l) [rd (.cached l)]
  -- 113: a public member
  | .cacheTime l => [rd (.copyTime l)]
  -- CORE/callback_handler.h 229-234, 116-123: the request is copied and published under the lock
  | .request h => under (.handler h) [.user .value, wr (.requests h), .user .publish]
  -- 237-241, 126-141: correlation function and callback are called under the lock
  | .reply h n f => under (.handler h) (onReply h n f)
  -- 93-109: the listener is registered by the constructor of the base class and removed by its destructor, when the virtual function is that of the base class
  | .replyEarly h n f => onReply h n f
  -- ZMQ/zmq_poller.h 113-117
  | .register p => under (.poller p) [.user .value, wr (.topics p), .user .value]
  -- 123-127
  | .unregister p => under (.poller p) [wr (.topics p), .user .value]
  -- 134-141: the function is called under the lock
  | .execute p f => under (.poller p) ([rd (.topics p)] ++ if f then [.user .function] else [])
  -- WAIT/blocking_wait_strategy.h 64-83, lite_blocking_wait_strategy.h 68-90, timeout_blocking_wait_strategy.h 67-90
  | .waitFor w n => under (.strategy w) (waits (.strategy w) [] n)
  -- WAIT/blocking_wait_strategy.h 84-88, lite_blocking_wait_strategy.h 92-98, timeout_blocking_wait_strategy.h 91-95
  | .signal w => under (.strategy w) []
  -- /repo/core/modules/mem_mdlw/src/in_memory_queue_poller.cpp 37-58, basic_scheduler.cpp 64-70; ZMQ/zmq_poller.h 87-106; /repo/core/modules/zmq_mdlw/src/
  -- zmq_env.cpp 201-207; /repo/high_performance/modules/high_performance/include/klepsydra/high_performance/event_loop.h 126-140,
  -- data_multiplexer_subscriber.h 115-126: no mutex is held
  | .join w => under (.life w) []

/-- The mutexes that a function with this rest of code still has to unlock: it holds them now. -/
def pend : List I → List Mx
  | [] => []
  | .acq m :: r => (pend r).erase m
  | .rel m :: r => m :: pend r
  | _ :: r => pend r

/-- An exception leaves the function: its lock guards unlock. -/
def unwind (r : List I) : List I := (pend r).map .rel

structure St where
  /-- the calls every thread is in, innermost first, each with the rest of its code -/
  stack : Nat → List (List I)
  owner : Mx → Option Nat

def St.init : St := ⟨fun _ => [], fun _ => none⟩

/-- The code of worker thread `w`, which runs `n` rounds. -/
def body (w n : Nat) : List I := users .worker n ++ [.rel (.life w)]

inductive Act where
  /-- worker thread `w` is started, for `n` rounds (start functions of pollers, loops, schedulers and subscribers: `std::thread(...)`) -/
  | spawn (w n : Nat)
  /-- code of the user calls a function -/
  | call (t : Nat) (f : Fn)
  /-- unknown code returns -/
  | ret (t : Nat)
  /-- unknown code throws, or does not catch the exception of a function it has called -/
  | throw (t : Nat)
  /-- the thread locks a mutex, unlocks one, reads or writes data, is woken up, or leaves a function -/
  | step (t : Nat)
  deriving DecidableEq, Repr

/-- The thread of an action. -/
def Act.thread : Act → Nat
  | .spawn t _ | .call t _ | .ret t | .throw t | .step t => t

/-- One step.  A thread with an empty stack is in code of the user. -/
def step (s : St) : Act → Option St
  | .spawn w n => if s.stack w = [] ∧ s.owner (.life w) = none then some ⟨upd s.stack w [body w n], upd s.owner (.life w) (some w)⟩ else none
  | .call t f =>
    match s.stack t with
    | [] => some { s with stack := upd s.stack t [code f] }
    | (.user k :: r) :: st => some { s with stack := upd s.stack t (code f :: (.user k :: r) :: st) }
    | _ => none
  | .ret t =>
    match s.stack t with
    | (.user _ :: r) :: st => some { s with stack := upd s.stack t (r :: st) }
    | _ => none
  | .throw t =>
    match s.stack t with
    | (.user _ :: r) :: st => some { s with stack := upd s.stack t (unwind r :: st) }
    | _ => none
  | .step t =>
    match s.stack t with
    | [] :: st => some { s with stack := upd s.stack t st }
    | (.acq m :: r) :: st => if s.owner m = none then some ⟨upd s.stack t (r :: st), upd s.owner m (some t)⟩ else none
    | (.rel m :: r) :: st => some ⟨upd s.stack t (r :: st), upd s.owner m none⟩
    | (.wait :: r) :: st => some { s with stack := upd s.stack t (r :: st) }
    | (.acc _ _ :: r) :: st => some { s with stack := upd s.stack t (r :: st) }
    | _ => none

def run (s : St) : List Act → Option St
  | [] => some s
  | a :: as => match step s a with
    | none => none
    | some s' => run s' as

end Verif.Locks
