import Verif.Basic

/-!
Environments: `ConfigurationProperties`, `DynamicConfigurationProperties` (core/modules/core/include/klepsydra/core/configuration_properties.h),
`ConfigurationEnvironment` (core/modules/core/src/configuration_environment.cpp), `MemEnv` (core/modules/mem_mdlw/src/mem_env.cpp) and the
message level of `ZMQEnv` (core/modules/zmq_mdlw/src/zmq_env.cpp).

A `std::map` is a list of pairs with distinct keys; its order is never observable here.  Simplifications: the JSON archive (cereal) is not
modelled: exporting an environment and importing the text gives back its four maps (trusted); logging is left out.  Every method of
`MemEnv` holds its mutex from beginning to end, so concurrent calls are some sequence of calls.
-/

namespace Verif.Env

/-- The four property types. -/
inductive Kind where
  | string | bool | int | float
  deriving DecidableEq, Repr

/-- C++ value of each type; `float` is an opaque bit pattern. -/
abbrev Kind.Val : Kind → Type
  | .string => String
  | .bool => Bool
  | .int => Int
  | .float => Nat

section map
variable {V : Type}

/-- `std::map::find` -/
def find (m : List (String × V)) (k : String) : Option V :=
  match m with
  | [] => none
  | (k', v) :: m => if k' = k then some v else find m k

/-- `std::map::insert`: does nothing if the key exists; the flag says whether it was inserted. -/
def insert (m : List (String × V)) (k : String) (v : V) : List (String × V) × Bool :=
  match find m k with
  | some _ => (m, false)
  | none => (m ++ [(k, v)], true)

/-- Assignment through an iterator (`it->second = v`) or `m[k] = v` for an existing key. -/
def assign (m : List (String × V)) (k : String) (v : V) : List (String × V) :=
  m.map (fun p => if p.1 = k then (k, v) else p)

end map

/-- `getFullKey` (configuration_properties.h 18-21). -/
def getFullKey (key root : String) : String := if root = "" then key else root ++ "/" ++ key

/-! `ConfigurationProperties<T>` -/

/-- `getProperty` (96-106): value (the parameter keeps its old value otherwise) and result. -/
def propsGet {V : Type} (m : List (String × V)) (k : String) : Option V := find m k

/-- `setProperty` (108-117). -/
def propsSet {V : Type} (m : List (String × V)) (k : String) (v : V) : List (String × V) :=
  let r := insert m k v
  if r.2 then r.1 else assign m k v

/-- The loop of `copyFrom` (119-131). -/
def propsCopy {V : Type} (m : List (String × V)) (root : String) : List (String × V) → List (String × V) × Bool
  | [] => (m, true)
  | (k, v) :: rest =>
    let r := insert m (getFullKey k root) v
    let r2 := propsCopy r.1 root rest
    (r2.1, r.2 && r2.2)

/-! `ConfigurationEnvironment` -/

/-- The four property maps (configuration_environment.h 178-184). -/
structure CEnv where
  m : (k : Kind) → List (String × k.Val)

def CEnv.empty : CEnv := ⟨fun _ => []⟩

/-- Replace one of the maps. -/
def CEnv.set (e : CEnv) (k : Kind) (l : List (String × k.Val)) : CEnv :=
  ⟨fun k' => if h : k' = k then h ▸ l else e.m k'⟩

/-- `getPropertyX` (configuration_environment.cpp 48-90) and `printGetError` (configuration_environment.h 139-149): the value the caller
gets and the result. -/
def cGet (e : CEnv) (k : Kind) (key : String) (dflt : k.Val) (root : String) : k.Val × Bool :=
  match propsGet (e.m k) (getFullKey key root) with
  | some v => (v, true)
  | none => (dflt, false)

/-- `setPropertyX` (92-126). -/
def cSet (e : CEnv) (k : Kind) (key : String) (v : k.Val) (root : String) : CEnv :=
  e.set k (propsSet (e.m k) (getFullKey key root) v)

/-- One line of `copyFrom`: `copyResult = copyResult && ...copyFrom(...)`. -/
def cCopyOne (o : CEnv) (root : String) (r : CEnv × Bool) (k : Kind) : CEnv × Bool :=
  if r.2 then
    let p := propsCopy (r.1.m k) root (o.m k)
    (r.1.set k p.1, p.2)
  else r

/-- `copyFrom` (143-154): string, bool, int, float, with short-circuit evaluation. -/
def cCopy (e o : CEnv) (root : String) : CEnv × Bool :=
  cCopyOne o root (cCopyOne o root (cCopyOne o root (cCopyOne o root (e, true) .string) .bool) .int) .float

/-- `loadFile` (128-141); the parsed file is `none` if the archive throws. -/
def cLoad (e : CEnv) (file : Option CEnv) (root : String) : CEnv × Bool :=
  match file with
  | none => (e, false)
  | some o => cCopy e o root

/-! `MemEnv` -/

structure MEnv where
  m : (k : Kind) → List (String × k.Val)

def MEnv.empty : MEnv := ⟨fun _ => []⟩

def MEnv.set (e : MEnv) (k : Kind) (l : List (String × k.Val)) : MEnv :=
  ⟨fun k' => if h : k' = k then h ▸ l else e.m k'⟩

/-- `getPropertyX` (mem_env.cpp 17-79); the root is ignored. -/
def mGet (e : MEnv) (k : Kind) (key : String) (dflt : k.Val) (_root : String) : k.Val × Bool :=
  match find (e.m k) key with
  | some v => (v, true)
  | none => (dflt, false)

/-- `setPropertyX` (81-111): `map[key] = value`. -/
def mSet (e : MEnv) (k : Kind) (key : String) (v : k.Val) (_root : String) : MEnv :=
  e.set k (match find (e.m k) key with
    | some _ => assign (e.m k) key v
    | none => e.m k ++ [(key, v)])

/-- `loadFile` (113-116). -/
def mLoad (e : MEnv) : MEnv × Bool := (e, false)

/-! `DynamicConfigurationProperties` -/

/-- A stored property of any type. -/
abbrev Dyn := (k : Kind) × k.Val

/-- `getProperty<T>` (configuration_properties.h 30-48). -/
def dGet (m : List (String × Dyn)) (k : Kind) (key : String) : Option k.Val :=
  match find m key with
  | some d => if h : d.1 = k then some (h ▸ d.2) else none
  | none => none

/-- `setProperty<T>` (50-65). -/
def dSet (m : List (String × Dyn)) (k : Kind) (key : String) (v : k.Val) : List (String × Dyn) × Bool :=
  match find m key with
  | some d => if d.1 = k then insert m key ⟨k, v⟩ else (m, false)
  | none => insert m key ⟨k, v⟩

/-! `ZMQEnv`, message level -/

/-- `ZMQEnvironmentData`: configuration key, exported environment, source id. -/
structure Msg where
  key : String
  data : CEnv
  src : Nat

/-- One environment with its poller: configuration key, source id (creation time in milliseconds), environment. -/
structure Peer where
  key : String
  src : Nat
  env : CEnv

/-- Peers, and for each pair of a sender and a receiver the messages not delivered yet, oldest first.  A message published goes to every
peer, the sender included (one topic); messages of one sender arrive in order, messages of different senders in any order.  The
connected peers are those with a number below `count`. -/
structure Net where
  count : Nat
  peer : Nat → Peer
  chan : Nat → Nat → List Msg

/-- `publishConfiguration` of peer `p` (168-178) with the environment `e`. -/
def zPublish (n : Net) (p : Nat) (e : CEnv) : Net :=
  { n with chan := fun s q => if s = p ∧ q < n.count then n.chan s q ++ [⟨(n.peer p).key, e, (n.peer p).src⟩] else n.chan s q }

/-- `setPropertyX` of peer `p` (zmq_env.cpp 126-156). -/
def zSet (n : Net) (p : Nat) (k : Kind) (key : String) (v : k.Val) (root : String) : Net :=
  let e := cSet (n.peer p).env k key v root
  zPublish { n with peer := upd n.peer p { n.peer p with env := e } } p e

/-- `loadFile` of peer `p` (158-166): publishes only if the load reports success. -/
def zLoad (n : Net) (p : Nat) (file : Option CEnv) (root : String) : Net :=
  let r := cLoad (n.peer p).env file root
  let n' : Net := { n with peer := upd n.peer p { n.peer p with env := r.1 } }
  if r.2 then zPublish n' p r.1 else n'

/-- `poll` of peer `p` (208-231): takes one message, here one of sender `s`; applies it if the key is its own and the source is another.
Applying it replaces the four maps (`updateConfiguration`, configuration_environment.cpp 156-168, and `load`, property.h 122-144, which
clears the map first). -/
def zPoll (n : Net) (p s : Nat) : Net :=
  match n.chan s p with
  | [] => n
  | msg :: rest =>
    { count := n.count
      peer := if msg.key = (n.peer p).key ∧ msg.src ≠ (n.peer p).src then upd n.peer p { n.peer p with env := msg.data } else n.peer
      chan := fun s' q => if s' = s ∧ q = p then rest else n.chan s' q }

inductive ZOp where
  | set (p : Nat) (k : Kind) (key : String) (v : k.Val) (root : String)
  | load (p : Nat) (file : Option CEnv) (root : String)
  | poll (p s : Nat)

def zStep (n : Net) : ZOp → Net
  | .set p k key v root => zSet n p k key v root
  | .load p file root => zLoad n p file root
  | .poll p s => zPoll n p s

def zRun (n : Net) (ops : List ZOp) : Net := ops.foldl zStep n

end Verif.Env
