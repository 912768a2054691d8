import Verif.Basic

/-!
The objects `EventLoopMiddlewareProvider` hands out by name
(high_performance/modules/high_performance/include/klepsydra/high_performance/event_loop_middleware_provider.h).  The same find-or-create code is in
`ToZMQMiddlewareProvider` (core/modules/zmq_mdlw/include/klepsydra/zmq_core/to_zmq_middleware_provider.h 81-166, one map per kind of serialization) and
`DataMultiplexerMiddlewareProvider::getSubscriber` (data_multiplexer_middleware_provider.h 127-140).

Objects are numbered in the order of their construction.  `Ty` are the event types, `fn` is `std::function<void()>`; `Par` stands for all other
parameters of a call (pool size, initializer, cloner, unsafe mode, emitter type).  Calls are not concurrent (the class has no synchronisation).
The starting and stopping of the loop matters here only through `isRunning()`.
-/

namespace Verif.Prov
open Verif

/-- The dynamic type of an object made by the provider. -/
inductive Kind (Ty Par : Type) where
  /-- `EventLoopPublisher<T>` (116-123) -/
  | publisher (t : Ty) (p : Par)
  /-- `EventLoopSubscriber<T>` (147-150) -/
  | subscriber (t : Ty) (p : Par)
  /-- `EventLoopFunctionExecutorListener` (166-168) -/
  | exec
  deriving DecidableEq, Repr

structure Obj (Ty Par : Type) where
  kind : Kind Ty Par
  /-- topic -/
  name : String
  /-- container given to the constructor -/
  cont : Option Nat
  deriving DecidableEq, Repr

/-- `std::map<std::string, std::shared_ptr<void>>` (222, 223). -/
abbrev Map := List (String × Nat)

/-- `map[name] = pointer` -/
def Map.put (m : Map) (n : String) (i : Nat) : Map := (n, i) :: m.filter (fun e => e.1 != n)

structure St (Ty Par : Type) where
  /-- all objects ever made -/
  objs : List (Obj Ty Par)
  /-- objects destroyed (their only owner is the map) -/
  dead : List Nat
  pubs : Map
  subs : Map
  /-- `_scheduler`: the publisher object it uses -/
  sched : Option Nat
  /-- `_container` -/
  cont : Option Nat
  running : Bool
  /-- statistics attached to containers: container, object -/
  attached : List (Nat × Nat)

inductive Call (Ty Par : Type) where
  | getPublisher (t : Ty) (n : String) (p : Par)
  | getSubscriber (t : Ty) (n : String) (p : Par)
  | getScheduler (n : String)
  | setContainer (c : Option Nat)
  | start
  | stop
  deriving DecidableEq, Repr

/-- What a call returns. -/
inductive Ret where
  | obj (i : Nat)
  /-- the scheduler, which publishes with object `i` -/
  | sched (i : Nat)
  | unit
  deriving DecidableEq, Repr

variable {Ty Par : Type}

/-- Constructor of the provider (78-89). -/
def St.init (c : Option Nat) : St Ty Par := ⟨[], [], [], [], none, c, false, []⟩

/-- A new object; its constructor attaches its statistics to the container, if there is one (SDK: `Publisher`, `Subscriber`; exec: emitter `on`). -/
def St.new (s : St Ty Par) (k : Kind Ty Par) (n : String) : St Ty Par :=
  { s with
    objs := s.objs ++ [⟨k, n, s.cont⟩]
    attached := match s.cont with | some c => s.attached ++ [(c, s.objs.length)] | none => s.attached }

/-- getPublisher (102-128) -/
def getPublisher (s : St Ty Par) (t : Ty) (n : String) (p : Par) : St Ty Par × Nat :=
  match s.pubs.lookup n with
  | some i => (s, i)
  | none => ({ s.new (.publisher t p) n with pubs := s.pubs.put n s.objs.length }, s.objs.length)

/-- getSubscriber (136-155) -/
def getSubscriber (s : St Ty Par) (t : Ty) (n : String) (p : Par) : St Ty Par × Nat :=
  match s.subs.lookup n with
  | some i => (s, i)
  | none => ({ s.new (.subscriber t p) n with subs := s.subs.put n s.objs.length }, s.objs.length)

/-- The topic used by the scheduler (163). -/
def schedName (n : String) : String := if n = "" then "EVENTLOOP_SCHEDULER" else n

/-- getScheduler (161-178); `d` are the parameters of the call in 172-173.  Assigning to the map entry (170) destroys the object that was there. -/
def getScheduler (fn : Ty) (d : Par) (s : St Ty Par) (n : String) : St Ty Par × Nat :=
  match s.sched with
  | some i => (s, i)
  | none =>
    let n := schedName n
    let s1 := { s.new .exec n with
      subs := s.subs.put n s.objs.length
      dead := match s.subs.lookup n with | some i => s.dead ++ [i] | none => s.dead }
    let (s2, i) := getPublisher s1 fn n d
    ({ s2 with sched := some i }, i)

/-- setContainer (186-212).  The entries of the maps are taken for an `EventLoopFunctionExecutorListener` and a `Publisher<std::function<void()>>`. -/
def setContainer (fn : Ty) (d : Par) (s : St Ty Par) (c : Option Nat) : St Ty Par :=
  if s.running then s else
  let s1 := { s with cont := c }
  match s.sched, s.subs, s.pubs, c with
  | some _, [(n, i)], [_], some c =>
    let (s2, j) := getPublisher s1 fn n d
    { s2 with attached := s2.attached ++ [(c, i), (c, j)] }
  | _, _, _, _ => s1

def exec (fn : Ty) (d : Par) (s : St Ty Par) : Call Ty Par → St Ty Par × Ret
  | .getPublisher t n p => let r := getPublisher s t n p; (r.1, .obj r.2)
  | .getSubscriber t n p => let r := getSubscriber s t n p; (r.1, .obj r.2)
  | .getScheduler n => let r := getScheduler fn d s n; (r.1, .sched r.2)
  | .setContainer c => (setContainer fn d s c, .unit)
  | .start => ({ s with running := true }, .unit)
  | .stop => ({ s with running := false }, .unit)

/-- Executions of a provider made with container `c`: the calls with their results, and the state. -/
inductive Exec (fn : Ty) (d : Par) (c : Option Nat) : List (Call Ty Par × Ret) → St Ty Par → Prop
  | nil : Exec fn d c [] (.init c)
  | step {h s} (a : Call Ty Par) : Exec fn d c h s → Exec fn d c (h ++ [(a, (exec fn d s a).2)]) (exec fn d s a).1

def run (fn : Ty) (d : Par) (s : St Ty Par) : List (Call Ty Par) → List (Call Ty Par × Ret) × St Ty Par
  | [] => ([], s)
  | a :: as => let r := run fn d (exec fn d s a).1 as; ((a, (exec fn d s a).2) :: r.1, r.2)

end Verif.Prov
