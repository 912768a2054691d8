import Verif.Model.Memory
import Verif.Model.LockFreeStack

/-!
`kpsr::LockFreeStack<T>` (CORE/lock_free_stack.h 27-143) on the memory of Model/Memory.lean, with the memory orders of the code: the first load of a
list head is relaxed (112, 127), the compare-and-swap is acquire and release when it succeeds and acquire when it fails (118-121, 132-135).  A load
may return an old value of the head, and so may a compare-and-swap that fails.

Atomic variables: 0 is `head`, 1 is `free_nodes`, `i + 2` the link `index_next` of node `i`.  The links are plain integers in the code; here they are
given the benefit of relaxed atomic accesses (otherwise every race on them is undefined behaviour, C54).  Ordinary variable `i` is `data_buffer[i]`.

The parameter `dep` says how the read of a link (117) is ordered with respect to the load of the head that its address was computed from.  `false`: not
at all, as in the C++ memory model for a relaxed load.  `true`: the read sees at least what the thread that stored this head knew about the link, which is what
processors guarantee for dependent addresses (if the compiler keeps the dependency) and `memory_order_consume` or `memory_order_acquire` in line 112 would promise.

The program counter is the one of Model/LockFreeStack.lean; `ver` is the index of the message read.  A head is stored as `aba * 65536 + node_index`.
Moving the element out of the cell (104) is a read here; the theorem about the order of accesses covers a write at the same place.
-/

namespace Verif.RaStack
open Verif Verif.RA Verif.LFS

/-- The variable of a list head (lock_free_stack.h 63-64). -/
def hv : Which → Nat
  | .head => 0
  | .free => 1

/-- The variable of the link of node `i` (lock_free_stack.h 34-37). -/
def lv (i : Nat) : Nat := i + 2

/-- The two 16 bit fields of a head in one word (lock_free_stack.h 39-54). -/
def enc (h : Head) : Int := h.aba * 65536 + h.idx

def dec (x : Int) : Head := ⟨(x / 65536).toNat, (x % 65536).toNat⟩

/-- An update of a list: a node is taken from it or put on it, by which thread, and the element in the node. -/
structure Upd (α : Type) where
  put : Bool
  thread : Nat
  val : α
  deriving DecidableEq, Repr

structure St (α : Type) where
  mem : Mem α
  pc : Nat → PC α
  /-- ghost: the number of updates of the list a call works on first that happen before the call -/
  known : Nat → Nat
  /-- ghost: updates of each list in order -/
  log : Which → List (Upd α)
  /-- results of each thread, oldest first -/
  rets : Nat → List (Call α × Res α)
  /-- ghost: some compare-and-swap of `_pop` has succeeded with a head loaded 65536 or more updates ago -/
  late : Bool

/-- The constructor (lock_free_stack.h 67-86); the object is handed to the threads afterwards, so they know the initial values. -/
def St.init {α : Type} (cap : Nat) (d : Nat → α) : St α where
  mem := {
    msgs := fun l => match l with
      | 0 => [⟨enc ⟨0, 0⟩, .start⟩]
      | 1 => [⟨enc ⟨0, UNDEF⟩, .start⟩]
      | i + 2 => [⟨if i + 1 < cap then ((i + 1) % 65536 : Nat) else UNDEF, .start⟩]
    writes := fun i => [d i]
    reads := fun _ _ => 0
    view := fun _ => .start }
  pc := fun _ => .idle
  known := fun _ => 0
  log := fun _ => []
  rets := fun _ => []
  late := false

inductive Act (α : Type) where
  /-- an idle thread calls `push` or `pop` -/
  | call (t : Nat) (c : Call α)
  /-- `h.load`, 112 or 127, returns message `j` -/
  | load (t j : Nat)
  /-- the loop test of `_pop` finds no node, 114-115; the call returns false -/
  | giveUp (t : Nat)
  /-- the read of the link, 117, returns message `k` -/
  | link (t k : Nat)
  /-- the access to `data_buffer`, 94 or 104 -/
  | data (t : Nat)
  /-- the write of the link, 129 -/
  | setLink (t : Nat)
  /-- the compare-and-swap, 118 or 132, succeeds -/
  | cas (t : Nat)
  /-- it fails, for real or spuriously, and loads message `j` -/
  | casFail (t j : Nat)
  /-- thread `t` synchronises with thread `u` by other means (a lock, a join, ...) and learns all it knows -/
  | sync (t u : Nat)
  deriving DecidableEq, Repr

variable {α : Type}

/-- What orders the read of the link of node `x` after the load of message `j` of list `w`. -/
def depOk (dep : Bool) (m : Mem α) (w : Which) (j x k : Nat) : Bool :=
  !dep || (match (m.msgs (hv w))[j]? with
    | some g => decide (g.view.a (lv x) ≤ k)
    | none => false)

/-- One access to memory. -/
def step (dep : Bool) (s : St α) : Act α → Option (St α)
  | .call t c =>
    match s.pc t with
    | .idle => some { s with pc := upd s.pc t (.start c), known := upd s.known t ((s.mem.view t).a (hv c.src)) }
    | _ => none
  | .load t j =>
    match s.pc t with
    | .start c =>
      match s.mem.loadRlx t (hv c.src) j with
      | some (q, m) => some { s with mem := m, pc := upd s.pc t (.loaded c (dec q) j) }
      | none => none
    | .filled c i v =>
      match s.mem.loadRlx t (hv c.dst) j with
      | some (q, m) => some { s with mem := m, pc := upd s.pc t (.pLoaded c i v (dec q)) }
      | none => none
    | _ => none
  | .giveUp t =>
    match s.pc t with
    | .loaded c orig _ =>
      if orig.idx = UNDEF then some { s with pc := upd s.pc t .idle, rets := upd s.rets t (s.rets t ++ [(c, c.failRes)]) } else none
    | _ => none
  | .link t k =>
    match s.pc t with
    | .loaded c orig j =>
      if orig.idx ≠ UNDEF ∧ depOk dep s.mem c.src j orig.idx k = true then
        match s.mem.loadRlx t (lv orig.idx) k with
        | some (q, m) => some { s with mem := m, pc := upd s.pc t (.linkRead c orig j (q % 65536).toNat) }
        | none => none
      else none
    | _ => none
  | .cas t =>
    match s.pc t with
    | .linkRead c orig j n =>
      -- 118-121
      match s.mem.last (hv c.src), s.mem.writes orig.idx with
      | some g, v :: _ =>
        if dec g.val = orig then
          match s.mem.rmw t (hv c.src) (fun _ => enc (orig.bump n)) with
          | some (_, m) =>
            some { s with mem := m, pc := upd s.pc t (.holds c orig.idx), log := upd s.log c.src (s.log c.src ++ [⟨false, t, v⟩]),
                          late := s.late || decide (j + TAGS < (s.mem.msgs (hv c.src)).length) }
          | none => none
        else none
      | _, _ => none
    | .pLinked c i v orig =>
      -- 132-135; then 96 or 106
      match s.mem.last (hv c.dst), s.mem.writes i with
      | some g, x :: _ =>
        if dec g.val = orig then
          match s.mem.rmw t (hv c.dst) (fun _ => enc (orig.bump i)) with
          | some (_, m) =>
            some { s with mem := m, pc := upd s.pc t .idle, log := upd s.log c.dst (s.log c.dst ++ [⟨true, t, x⟩]),
                          rets := upd s.rets t (s.rets t ++ [(c, c.okRes v)]) }
          | none => none
        else none
      | _, _ => none
    | _ => none
  | .casFail t j =>
    match s.pc t with
    | .linkRead c _ _ _ =>
      match s.mem.load t (hv c.src) j with
      | some (q, m) => some { s with mem := m, pc := upd s.pc t (.loaded c (dec q) j) }
      | none => none
    | .pLinked c i v _ =>
      match s.mem.load t (hv c.dst) j with
      | some (q, m) => some { s with mem := m, pc := upd s.pc t (.pLoaded c i v (dec q)) }
      | none => none
    | _ => none
  | .data t =>
    match s.pc t with
    | .holds (.push x) i => some { s with mem := s.mem.write t i x, pc := upd s.pc t (.filled (.push x) i x) }
    | .holds .pop i =>
      match s.mem.read t i with
      | some (v, m) => some { s with mem := m, pc := upd s.pc t (.filled .pop i v) }
      | none => none
    | _ => none
  | .setLink t =>
    match s.pc t with
    | .pLoaded c i v orig =>
      some { s with mem := s.mem.storeRlx t (lv i) orig.idx, pc := upd s.pc t (.pLinked c i v orig) }
    | _ => none
  | .sync t u => some { s with mem := { s.mem with view := upd s.mem.view t ((s.mem.view t).join (s.mem.view u)) } }

def run (dep : Bool) (s : St α) : List (Act α) → Option (St α)
  | [] => some s
  | a :: as => (step dep s a).bind (fun s' => run dep s' as)

/-- States reached from a new stack of capacity `cap`, elements `d 0, d 1, ...`. -/
inductive Reach (dep : Bool) (cap : Nat) (d : Nat → α) : St α → Prop
  | init : Reach dep cap d (St.init cap d)
  | step {s s' a} : Reach dep cap d s → step dep s a = some s' → Reach dep cap d s'

end Verif.RaStack
