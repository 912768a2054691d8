import Verif.Model.SingleRing

/-!
The data multiplexer: `DataMultiplexerPublisher`, `DataMultiplexerEventHandler`, `DataMultiplexerSubscriber`,
`DataMultiplexerMiddlewareProvider` (high_performance/modules/high_performance/include/klepsydra/high_performance/data_multiplexer_*.h) on top
of the ring with a single producer of Model/SingleRing.lean, whose steps it uses.

A slot of the ring holds a shared pointer.  What it points to is an object on the heap: the one the slot was built with, or one made by a
later publication.  Simplifications: one publishing thread (the ring has a single producer); the emitter behind a subscriber is one
listener here (Model/MuxDispatch.lean has the emitter and its listeners); time stamps and statistics other than the discarded events are left out.
-/

namespace Verif.Mux
open Verif Verif.Disr

/-- Objects: the one slot `i` was built with (`DataMultiplexerDataWrapper()`, data_multiplexer_event_data.h 36-38); the model event, one
object for all slots (data_multiplexer_middleware_provider.h 103-113 and ring_buffer.h 85-92, which copies the same shared pointer); the
`n`-th object made by `make_shared` in the publisher. -/
inductive Obj where
  | init (i : Nat) | model | fresh (n : Nat)
  deriving DecidableEq, Repr

/-- The object a slot points to: `none` is the pointer it was built with. -/
def obj (shared : Bool) (i : Nat) : Option Nat → Obj
  | some n => .fresh n
  | none => if shared then .model else .init i

/-- What a publication does to the claimed slot (data_multiplexer_publisher.h 62-90). -/
inductive Op (T : Type) where
  /-- `publish(const T &)` without cloner: `cloned = std::make_shared<TEvent>(original)` -/
  | fresh (v : T)
  /-- everything else changes the object in place: `publish(shared_ptr)` (`*cloned = *original`), a cloner given by the user,
  `processAndPublish` -/
  | inplace (f : T → T)

/-- Where the publishing thread is. -/
inductive Pc (T : Type) where
  | idle
  /-- in `try_next` (99, 119, 140) -/
  | claiming (op : Op T)
  /-- sequence claimed, before the cloner (100, 120, 141) -/
  | writing (op : Op T) (x : Int)
  /-- before `publish` (102, 122, 143) -/
  | ready (op : Op T) (x : Int)

structure St (T : Type) where
  ring : SRing.St (Option Nat)
  heap : Obj → T
  /-- number of objects made by `make_shared` -/
  alloc : Nat
  pc : Pc T
  /-- `publicationStats.totalDiscardedEvents` -/
  discarded : Nat
  /-- history: the content of the event when its sequence became visible -/
  content : Int → Option T
  /-- history: events given to the listeners of subscriber `c` (sequence, object, content), newest first -/
  dl : Nat → List (Int × Obj × T)
  /-- `totalDiscardedEvents` of subscriber `c` (`discardEvent`) -/
  dc : Nat → Nat
  /-- history: successful calls -/
  done : Nat
  /-- history: the successful calls with the sequence each published, newest first -/
  calls : List (Int × Op T)
  /-- history: calls that failed with an exception of the cloner -/
  failed : Nat

/-- A new provider; `v` is the initial content of the objects (initializer, or the model event). -/
def St.init {T : Type} (v : T) : St T where
  ring := SRing.St.init none
  heap := fun _ => v
  alloc := 0
  pc := .idle
  discarded := 0
  content := fun _ => none
  dl := fun _ => []
  dc := fun _ => 0
  done := 0
  calls := []
  failed := 0

inductive Act (T : Type) where
  /-- the publisher enters `internalPublish` or `processAndPublish` -/
  | call (op : Op T)
  /-- next step inside `try_next` -/
  | scan
  /-- the cloner or process function returns -/
  | write
  /-- it throws, having changed the object by `g` -/
  | writeThrows (g : T → T)
  | publish
  /-- thread of subscriber `c`: `add_gating_sequences` (data_multiplexer_subscriber.h 82-86) -/
  | subscribe (c : Nat)
  | run (c : Nat)
  | look (c : Nat)
  /-- `on_event` is called (or the batch ends) -/
  | advance (c : Nat)
  | finish (c : Nat)
  /-- a listener throws `std::exception` -/
  | throw (c : Nat)
  /-- the subscriber is destroyed: `halt` and `join` (101-114); the sequence stays in the ring -/
  | leave (c : Nat)

variable {T : Type}

/-- After a step of `try_next`: refused (the catch clauses 103-108, 123-130, 144-149), claimed, or still inside. -/
def afterClaim (s : St T) (op : Op T) (r : SRing.St (Option Nat)) : St T :=
  if r.pp = .idle then
    if r.nextVal = s.ring.nextVal then { s with ring := r, pc := .idle, discarded := s.discarded + 1 }
    else { s with ring := r, pc := .writing op r.nextVal }
  else { s with ring := r, pc := .claiming op }

/-- The object of sequence `x`. -/
def objOf (shared : Bool) (k : Nat) (s : St T) (x : Int) : Obj := obj shared (slotIdx k x) (s.ring.slot (slotIdx k x))

/-- `on_event` (data_multiplexer_event_handler.h 80-94): the last event of a batch is emitted, the others are counted. -/
def onEvent (shared : Bool) (k : Nat) (s : St T) (c : Nat) (x : Int) (endOfBatch : Bool) : St T :=
  if endOfBatch then { s with dl := upd s.dl c ((x, objOf shared k s x, s.heap (objOf shared k s x)) :: s.dl c) }
  else { s with dc := upd s.dc c (s.dc c + 1) }

/-- A step of the ring that has no other effect. -/
def lift (s : St T) (r : Option (SRing.St (Option Nat))) : Option (St T) := r.map (fun r => { s with ring := r })

/-- A thrown `std::exception` can only come from a listener, and listeners are called at the end of a batch only. -/
def mayThrow (s : St T) (c : Nat) : Prop :=
  match s.ring.cp c with
  | .handle x av => x = av
  | _ => False

instance (s : St T) (c : Nat) : Decidable (mayThrow s c) := by
  unfold mayThrow; split <;> infer_instance

def step (shared : Bool) (k : Nat) (s : St T) : Act T → Option (St T)
  | .call op =>
    match s.pc with
    | .idle => (SRing.step k s.ring (.callTry 1)).map (afterClaim s op)
    | _ => none
  | .scan =>
    match s.pc with
    | .claiming op => (SRing.step k s.ring .pstep).map (afterClaim s op)
    | _ => none
  | .write =>
    match s.pc with
    | .writing (.fresh v) x =>
      (SRing.step k s.ring (.write x (some s.alloc))).map (fun r =>
        { s with ring := r, heap := upd s.heap (.fresh s.alloc) v, alloc := s.alloc + 1, pc := .ready (.fresh v) x })
    | .writing (.inplace f) x =>
      some { s with heap := upd s.heap (objOf shared k s x) (f (s.heap (objOf shared k s x))), pc := .ready (.inplace f) x }
    | _ => none
  | .writeThrows g =>
    match s.pc with
    | .writing (.fresh _) _ => some { s with pc := .idle, failed := s.failed + 1 }
    | .writing (.inplace _) x =>
      some { s with heap := upd s.heap (objOf shared k s x) (g (s.heap (objOf shared k s x))), pc := .idle, failed := s.failed + 1 }
    | _ => none
  | .publish =>
    match s.pc with
    | .ready op x =>
      (SRing.step k s.ring (.publish x)).map (fun r =>
        { s with
          ring := r, pc := .idle, done := s.done + 1, calls := (x, op) :: s.calls
          content := fun y => if s.ring.cursor < y ∧ y ≤ x then some (s.heap (objOf shared k s y)) else s.content y })
    | _ => none
  | .subscribe c =>
    (SRing.step k s.ring (.addGating c)).map (fun r => { s with ring := r, dl := upd s.dl c [], dc := upd s.dc c 0 })
  | .run c => lift s (SRing.step k s.ring (.run c))
  | .look c => lift s (SRing.step k s.ring (.look c))
  | .advance c =>
    match s.ring.cp c with
    | .batch nx av =>
      if nx ≤ av then lift (onEvent shared k s c nx (decide (nx = av))) (SRing.step k s.ring (.advance c))
      else lift s (SRing.step k s.ring (.advance c))
    | _ => none
  | .finish c => lift s (SRing.step k s.ring (.finish c))
  | .throw c => if mayThrow s c then lift s (SRing.step k s.ring (.throw c)) else none
  | .leave c => lift s (SRing.step k s.ring (.leave c))

def run (shared : Bool) (k : Nat) (s : St T) : List (Act T) → Option (St T)
  | [] => some s
  | a :: as => match step shared k s a with
    | none => none
    | some s' => run shared k s' as

end Verif.Mux
