import Verif.Basic

/-!
Model of the mappers of the serialization module (SER/identity_mapper.h, SER/void_caster_mapper.h).  The cereal mappers are
modelled with the ZMQ channels that use them (`Model/Channel.lean`); cereal itself is external.
-/

namespace Verif.Mapper

abbrev Byte := UInt8

/-- Memory: the byte at every address. -/
abbrev Mem := Nat → Byte

/-- A `std::vector<unsigned char>` with data at address `addr`. -/
structure Vec where
  addr : Nat
  len : Nat
  deriving DecidableEq, Repr

/-- The bytes of a vector. -/
def Vec.bytes (v : Vec) (m : Mem) : List Byte := (List.range v.len).map (fun i => m (v.addr + i))

/-- Addresses read by `std::memcpy(&event, message.data(), sizeof(T))` (void_caster_mapper.h 46-49); `n` is `sizeof(T)`. -/
def reads (n : Nat) (v : Vec) : List Nat := (List.range n).map (fun i => v.addr + i)

/-- `fromMiddleware`, void_caster_mapper.h 46-49: the new object representation of `event`. -/
def fromMiddleware (n : Nat) (m : Mem) (v : Vec) : List Byte := (reads n v).map m

/-- The object representation of an object of `n` bytes at `addr`. -/
def object (n : Nat) (m : Mem) (addr : Nat) : List Byte := (List.range n).map (fun i => m (addr + i))

/-- `toMiddleware`, void_caster_mapper.h 56-61: a vector is built from the `n` bytes from the address of the event on and assigned
to `message`, whatever it was. -/
def toMiddleware (n : Nat) (m : Mem) (event : Nat) (_message : List Byte) : List Byte :=
  let begin := event
  let «end» := event + n
  (List.range («end» - begin)).map (fun i => m (begin + i))

/-- `Mapper<K, K>`, identity_mapper.h 45 and 53. -/
def identityFrom {K : Type} (message : K) (_event : K) : K := message
def identityTo {K : Type} (event : K) (_message : K) : K := event

/-! ### Include guards -/

/-- The headers that define mappers. -/
inductive Header where
  | identity
  | voidCaster
  | json
  | binary
  deriving DecidableEq, Repr

/-- Line 17 of each header. -/
def Header.guard : Header → String
  | .identity => "IDENTITY_MAPPER_H"
  | .voidCaster => "IDENTITY_MAPPER_H"
  | .json => "CEREAL_JSON_MAPPER_H"
  | .binary => "CEREAL_BINARY_MAPPER_H"

/-- The preprocessor: the mappers declared after the given inclusions; `g` are the macros defined so far. -/
def declared (g : List String) : List Header → List Header
  | [] => []
  | h :: hs => if h.guard ∈ g then declared g hs else h :: declared (h.guard :: g) hs

end Verif.Mapper
