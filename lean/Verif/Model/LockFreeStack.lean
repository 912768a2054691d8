import Verif.Basic

/-!
Model of `kpsr::LockFreeStack<T>` (CORE/lock_free_stack.h 27-143).

Every access to shared memory (the load of a list head, the read or write of a link field, the access to a
data cell, the compare-and-swap) is one atomic step of one thread; threads are interleaved arbitrarily.
Simplifications: sequentially consistent memory (the code uses relaxed/acquire/release orders); the link
field `index_next` is a plain `uint16_t` in the code and is read while another thread may write it
(formally a data race, see `Props/LockFreeStack.lean`), here the read returns the current value.
-/

namespace Verif.LFS

/-- `UNDEF_INDEX` (lock_free_stack.h 30): the null index. -/
def UNDEF : Nat := 65535

/-- Number of values of the `uint16_t aba` counter (lock_free_stack.h 41). -/
def TAGS : Nat := 65536

/-- `head_t` (lock_free_stack.h 39-54): ABA counter and index of the first node. -/
structure Head where
  aba : Nat
  idx : Nat
  deriving DecidableEq, Repr

/-- The two lists kept in the node buffer: `head` and `free_nodes` (lock_free_stack.h 63-64). -/
inductive Which where
  | head
  | free
  deriving DecidableEq, Repr

/-- A call of the public interface: `push(x)` (88-97) or `pop(data)` (99-107). -/
inductive Call (α : Type) where
  | push (x : α)
  | pop
  deriving DecidableEq, Repr

/-- Result of a call: the boolean of `push`, or of `pop` with the value moved out. -/
inductive Res (α : Type) where
  | pushed (ok : Bool)
  | popped (v : Option α)
  deriving DecidableEq, Repr

/-- The list a call takes a node from with `_pop`: `push` takes from `free_nodes` (91),
`pop` from `head` (101). -/
def Call.src {α} : Call α → Which
  | .push _ => .free
  | .pop => .head

/-- The list a call gives the node to with `_push`: `push` gives to `head` (95),
`pop` to `free_nodes` (105). -/
def Call.dst {α} : Call α → Which
  | .push _ => .head
  | .pop => .free

/-- Program counter of a thread.  The fields named `ver` are ghost: the number of successful
compare-and-swaps of the list when `orig` was loaded; no step depends on them. -/
inductive PC (α : Type) where
  /-- not inside a call -/
  | idle
  /-- called, before `h.load` of `_pop` (112) -/
  | start (c : Call α)
  /-- `orig` is loaded, loop test and link read of `_pop` next (113-117) -/
  | loaded (c : Call α) (orig : Head) (ver : Nat)
  /-- the link `index_next` of `orig` was read (117), compare-and-swap of `_pop` next (118) -/
  | linkRead (c : Call α) (orig : Head) (ver : Nat) (n : Nat)
  /-- `_pop` returned node `i`; access to `data_buffer[i]` next (94 / 104) -/
  | holds (c : Call α) (i : Nat)
  /-- data written or moved out (value `v`), before `h.load` of `_push` (127) -/
  | filled (c : Call α) (i : Nat) (v : α)
  /-- `orig` loaded in `_push`, link write next (129) -/
  | pLoaded (c : Call α) (i : Nat) (v : α) (orig : Head)
  /-- link written (129), compare-and-swap of `_push` next (132) -/
  | pLinked (c : Call α) (i : Nat) (v : α) (orig : Head)
  deriving DecidableEq, Repr

/-- Shared memory and the threads. -/
structure State (α : Type) where
  /-- `node_buffer[i].index_next` -/
  nxt : Nat → Nat
  /-- `data_buffer[i]` -/
  data : Nat → α
  /-- `head` and `free_nodes` -/
  hd : Which → Head
  /-- ghost: number of successful compare-and-swaps of each list -/
  ver : Which → Nat
  pc : Nat → PC α

/-- Constructor (lock_free_stack.h 67-86) for `cap ≥ 1`: `head` starts at node 0, every node but the last
links to the next one (`index_next = i + 1` stored in a `uint16_t`, line 79), the last one to `UNDEF`;
`free_nodes` is empty; `d i` is what `initFunction` stored in cell `i`.
(`cap = 0` makes `realCapacity - 1` wrap: undefined behaviour, excluded here.) -/
def init {α : Type} (cap : Nat) (d : Nat → α) : State α where
  nxt := fun i => if i + 1 < cap then (i + 1) % 65536 else UNDEF
  data := d
  hd := fun w => match w with
    | .head => ⟨0, 0⟩
    | .free => ⟨0, UNDEF⟩
  ver := fun _ => 0
  pc := fun _ => .idle

/-- What the scheduler chooses: an idle thread starts a call, or a thread takes its next step.
`spurious` makes `compare_exchange_weak` fail although the values agree. -/
inductive Act (α : Type) where
  | call (c : Call α)
  | go (spurious : Bool)
  deriving DecidableEq, Repr

/-- Observable events: a call begins, a call returns with a result. -/
inductive Obs (α : Type) where
  | inv (t : Nat) (c : Call α)
  | ret (t : Nat) (c : Call α) (r : Res α)
  deriving DecidableEq, Repr

/-- The result of a call that found no node (92-93, 102-103). -/
def Call.failRes {α} : Call α → Res α
  | .push _ => .pushed false
  | .pop => .popped none

/-- The result of a call that moved the value `v` (96, 106). -/
def Call.okRes {α} (v : α) : Call α → Res α
  | .push _ => .pushed true
  | .pop => .popped (some v)

/-- New head value written by a successful compare-and-swap: counter incremented in `uint16_t`
(116, 130). -/
def Head.bump (orig : Head) (i : Nat) : Head := ⟨(orig.aba + 1) % TAGS, i⟩

/-- One atomic step of thread `t`. -/
def step {α : Type} (s : State α) (t : Nat) (a : Act α) : Option (State α × List (Obs α)) :=
  match a, s.pc t with
  | .call c, .idle => some ({ s with pc := upd s.pc t (.start c) }, [.inv t c])
  | .call _, _ => none
  | .go _, .idle => none
  -- _pop 112: head_t orig = h.load
  | .go _, .start c =>
    some ({ s with pc := upd s.pc t (.loaded c (s.hd c.src) (s.ver c.src)) }, [])
  -- _pop 114-117: null test, else read of node_buffer[orig.node_index].index_next
  | .go _, .loaded c orig ver =>
    if orig.idx = UNDEF then
      some ({ s with pc := upd s.pc t .idle }, [.ret t c c.failRes])
    else
      some ({ s with pc := upd s.pc t (.linkRead c orig ver (s.nxt orig.idx)) }, [])
  -- _pop 118-122: compare_exchange_weak(orig, {orig.aba+1, n}); on failure orig is reloaded
  | .go sp, .linkRead c orig _ n =>
    if s.hd c.src = orig ∧ sp = false then
      some ({ s with hd := upd s.hd c.src (orig.bump n),
                     ver := upd s.ver c.src (s.ver c.src + 1),
                     pc := upd s.pc t (.holds c orig.idx) }, [])
    else
      some ({ s with pc := upd s.pc t (.loaded c (s.hd c.src) (s.ver c.src)) }, [])
  -- push 94: data_buffer[i] = x;  pop 104: data = std::move(data_buffer[i])
  | .go _, .holds c i =>
    match c with
    | .push x => some ({ s with data := upd s.data i x, pc := upd s.pc t (.filled c i x) }, [])
    | .pop => some ({ s with pc := upd s.pc t (.filled c i (s.data i)) }, [])
  -- _push 127: orig = h.load
  | .go _, .filled c i v =>
    some ({ s with pc := upd s.pc t (.pLoaded c i v (s.hd c.dst)) }, [])
  -- _push 129: node->index_next = orig.node_index
  | .go _, .pLoaded c i v orig =>
    some ({ s with nxt := upd s.nxt i orig.idx, pc := upd s.pc t (.pLinked c i v orig) }, [])
  -- _push 130-135: compare_exchange_weak(orig, {orig.aba+1, i}); on failure orig is reloaded
  | .go sp, .pLinked c i v orig =>
    if s.hd c.dst = orig ∧ sp = false then
      some ({ s with hd := upd s.hd c.dst (orig.bump i),
                     ver := upd s.ver c.dst (s.ver c.dst + 1),
                     pc := upd s.pc t .idle }, [.ret t c (c.okRes v)])
    else
      some ({ s with pc := upd s.pc t (.pLoaded c i v (s.hd c.dst)) }, [])

/-- A schedule: which thread does what, in order. -/
abbrev Sched (α : Type) := List (Nat × Act α)

/-- Execution of a schedule; the result is the final state and the observable history. -/
def run {α : Type} : State α → Sched α → Option (State α × List (Obs α))
  | s, [] => some (s, [])
  | s, (t, a) :: rest =>
    match step s t a with
    | none => none
    | some (s', o) =>
      match run s' rest with
      | none => none
      | some (s'', h) => some (s'', o ++ h)

/-- Thread `t` is not about to do a compare-and-swap of `_pop` with a value of the list head loaded
65536 or more successful updates of that list ago. -/
def Fresh {α : Type} (s : State α) (t : Nat) : Prop :=
  match s.pc t with
  | .linkRead c _ ver _ => s.ver c.src < ver + TAGS
  | _ => True

/-- No step of the schedule is a compare-and-swap of `_pop` overtaken by a full turn of the
16 bit counter. -/
def NoWrap {α : Type} : State α → Sched α → Prop
  | _, [] => True
  | s, (t, a) :: rest => Fresh s t ∧ ∀ s' o, step s t a = some (s', o) → NoWrap s' rest

end Verif.LFS

namespace Verif.LFS

/-- `l` is the chain of nodes from index `i` along `nxt`, ended by `UNDEF`. -/
def Chain (nxt : Nat → Nat) : Nat → List Nat → Prop
  | i, [] => i = UNDEF
  | i, x :: r => i = x ∧ Chain nxt (nxt x) r

/-- Thread `t` is about to read the link field of node `i` (lock_free_stack.h 117). -/
def ReadsLink {α : Type} (s : State α) (t i : Nat) : Prop :=
  match s.pc t with
  | .loaded _ orig _ => orig.idx = i ∧ i ≠ UNDEF
  | _ => False

/-- Thread `t` is about to write the link field of node `i` (lock_free_stack.h 129). -/
def WritesLink {α : Type} (s : State α) (t i : Nat) : Prop :=
  match s.pc t with
  | .pLoaded _ j _ _ => j = i
  | _ => False

/-- Thread `t` is about to access the data cell `i` (lock_free_stack.h 94, 104). -/
def AccessesData {α : Type} (s : State α) (t i : Nat) : Prop :=
  match s.pc t with
  | .holds _ j => j = i
  | _ => False

end Verif.LFS
