import Verif.Basic
import Verif.Spec.Callback

/-!
`CallbackHandler` and `MultiThreadCallbackHandler` (core/modules/core/include/klepsydra/core/callback_handler.h 84-150, 203-245).

Both are open systems: the publisher may deliver replies from inside `publish`, and a request callback may use the handler again.  The
handler's vector is a list; an iterator of `onReplyReceived` is an index with a validity flag, since `push_back` (on reallocation) and `erase`
invalidate iterators.  Simplifications: the correlation function is a pure function; the events of the constructor and destructor (registration in
the subscriber) are not part of the model.
-/

namespace Verif.Callback
open Verif

variable {Q R : Type}

/-- The loop of `onReplyReceived` (128-131): index and number of the first request that correlates. -/
def firstMatch (corr : Q → R → Bool) (p : R) : List (Nat × Q) → Option (Nat × Nat)
  | [] => none
  | (i, q) :: l => if corr q p then some (0, i) else (firstMatch corr p l).map (fun x => (x.1 + 1, x.2))

/-! ### the single threaded handler -/

/-- A call of the handler in progress, on the stack of the thread. -/
inductive Frame where
  /-- in `_publisher->publish(request)` (122) -/
  | publishing
  /-- in `(*it).second(reply)` (130): the position of `it`, and whether it is still valid -/
  | calling (idx : Nat) (valid : Bool)
  deriving DecidableEq

structure St (Q R : Type) where
  /-- `_requestCallbackVector`, the requests with their number -/
  vec : List (Nat × Q)
  /-- requests issued so far -/
  next : Nat
  stack : List Frame
  /-- history, newest first -/
  hist : List (Ev Q R)
  /-- an invalid iterator was used: undefined behaviour -/
  undefined : Bool

def St.init : St Q R := ⟨[], 0, [], [], false⟩

inductive Act (Q R : Type) where
  /-- `requestAndReply(q)`; `realloc`: `push_back` moves the vector -/
  | request (q : Q) (realloc : Bool)
  /-- `onReplyReceived(p)` -/
  | reply (p : R)
  /-- the innermost call of `publish` or of a callback returns -/
  | ret
  /-- it throws an exception instead -/
  | throw

/-- All iterators become invalid. -/
def Frame.invalidate : Frame → Frame
  | .calling i _ => .calling i false
  | .publishing => .publishing

/-- `erase` at `k` invalidates the iterators from `k` on. -/
def Frame.erased (k : Nat) : Frame → Frame
  | .calling i v => .calling i (v && decide (i < k))
  | .publishing => .publishing

def step (corr : Q → R → Bool) (s : St Q R) : Act Q R → Option (St Q R)
  | .request q realloc =>
    -- 119-122
    some { s with
      vec := s.vec ++ [(s.next, q)]
      next := s.next + 1
      stack := .publishing :: (if realloc then s.stack.map Frame.invalidate else s.stack)
      hist := .request s.next q :: s.hist }
  | .reply p =>
    -- 128-139
    match firstMatch corr p s.vec with
    | none => some { s with hist := .reply p none :: s.hist }
    | some (k, i) => some { s with stack := .calling k true :: s.stack, hist := .reply p (some i) :: s.hist }
  | .ret =>
    match s.stack with
    | [] => none
    | .publishing :: st => some { s with stack := st }
    -- 131: `erase(it)`
    | .calling k v :: st =>
      if v then some { s with vec := s.vec.eraseIdx k, stack := st.map (Frame.erased k) }
      else some { s with stack := st, undefined := true }
  | .throw =>
    match s.stack with
    | [] => none
    | _ :: st => some { s with stack := st }

def run (corr : Q → R → Bool) (s : St Q R) : List (Act Q R) → Option (St Q R)
  | [] => some s
  | a :: as => match step corr s a with
    | none => none
    | some s' => run corr s' as

/-! ### the handler with a mutex -/

/-- A call of the handler in progress on the stack of a thread. -/
inductive MFrame (Q R : Type) where
  /-- `requestAndReply` waits at the mutex (232) -/
  | wantReq (q : Q)
  /-- `onReplyReceived` waits at the mutex (239) -/
  | wantReply (p : R)
  /-- in `publish`, holding the mutex -/
  | publishing
  /-- in a callback, holding the mutex -/
  | calling (idx : Nat)

structure MSt (Q R : Type) where
  vec : List (Nat × Q)
  next : Nat
  /-- the mutex: the thread that holds it -/
  owner : Option Nat
  stack : Nat → List (MFrame Q R)
  hist : List (Ev Q R)

def MSt.init : MSt Q R := ⟨[], 0, none, fun _ => [], []⟩

inductive MAct (Q R : Type) where
  /-- thread `t` calls `requestAndReply`: at top level, or from inside a callback or `publish` -/
  | callReq (t : Nat) (q : Q)
  /-- thread `t` delivers a reply -/
  | callReply (t : Nat) (p : R)
  /-- thread `t` gets the mutex and runs up to the call of `publish` or of the callback (or to the end if no request correlates) -/
  | lock (t : Nat)
  /-- `publish` or the callback returns; end of the call -/
  | ret (t : Nat)
  /-- `publish` or the callback throws; `lock_guard` unlocks -/
  | throw (t : Nat)

/-- The thread runs user code: it can make a call. -/
def canCall : List (MFrame Q R) → Bool
  | .wantReq _ :: _ => false
  | .wantReply _ :: _ => false
  | _ => true

def mstep (corr : Q → R → Bool) (s : MSt Q R) : MAct Q R → Option (MSt Q R)
  | .callReq t q => if canCall (s.stack t) then some { s with stack := upd s.stack t (.wantReq q :: s.stack t) } else none
  | .callReply t p => if canCall (s.stack t) then some { s with stack := upd s.stack t (.wantReply p :: s.stack t) } else none
  | .lock t =>
    match s.owner, s.stack t with
    | none, .wantReq q :: st => some { s with
        vec := s.vec ++ [(s.next, q)], next := s.next + 1, owner := some t, stack := upd s.stack t (.publishing :: st)
        hist := .request s.next q :: s.hist }
    | none, .wantReply p :: st =>
      match firstMatch corr p s.vec with
      | none => some { s with stack := upd s.stack t st, hist := .reply p none :: s.hist }
      | some (k, i) => some { s with owner := some t, stack := upd s.stack t (.calling k :: st), hist := .reply p (some i) :: s.hist }
    | _, _ => none
  | .ret t =>
    match s.stack t with
    | .publishing :: st => some { s with owner := none, stack := upd s.stack t st }
    | .calling k :: st => some { s with vec := s.vec.eraseIdx k, owner := none, stack := upd s.stack t st }
    | _ => none
  | .throw t =>
    match s.stack t with
    | .publishing :: st => some { s with owner := none, stack := upd s.stack t st }
    | .calling _ :: st => some { s with owner := none, stack := upd s.stack t st }
    | _ => none

def mrun (corr : Q → R → Bool) (s : MSt Q R) : List (MAct Q R) → Option (MSt Q R)
  | [] => some s
  | a :: as => match mstep corr s a with
    | none => none
    | some s' => mrun corr s' as

end Verif.Callback
