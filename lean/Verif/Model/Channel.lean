import Verif.Spec.Channel
import Verif.Model.Mapper

/-!
Model of `kpsr::ToMiddlewareChannel` (CORE/to_middleware_channel.h), `kpsr::FromMiddlewareChannel`
(CORE/from_middleware_channel.h), `kpsr::EventForwarder` (CORE/event_forwarder.h) and of the ZMQ publishers behind them
(ZMQ/binary_to_zmq_channel.h, json_to_zmq_channel.h, void_caster_to_zmq_channel.h).

External and assumed: `Publisher::publish` (sdk) calls `internalPublish` once; `EventTransformForwarder::onEventReceived(m)` (sdk)
calls `processAndPublish` of its publisher once with the function that transforms `m` into the new event; cereal.
-/

namespace Verif.Channel

/-- `Mapper<K, M>`: `enc k m` is what `toMiddleware(k, m)` leaves in `m`, `dec m k` what `fromMiddleware(m, k)` leaves in `k`;
`none` = exception. -/
structure Mapper (K M : Type) where
  enc : K → M → Option M
  dec : M → K → Option K

/-- A publisher as the channels use it.  `buf sent` is the content of the object that is handed to the process function after the
messages `sent` have been published (a new object, or a used one of a pool, hence arbitrary). -/
structure Pub (M : Type) where
  buf : List M → M

/-- `processAndPublish(process)` of a publisher: the object is published if the function does not throw. -/
def Pub.processAndPublish {M : Type} (P : Pub M) (sent : List M) (process : M → Option M) : List M :=
  match process (P.buf sent) with
  | some m => sent ++ [m]
  | none => sent

variable {K M : Type}

/-- `internalPublish(const KpsrClass &)`, to_middleware_channel.h 72-83. -/
def internalPublish (mp : Mapper K M) (P : Pub M) (sent : List M) (event : K) : List M :=
  P.processAndPublish sent (fun newEvent => mp.enc event newEvent)

/-- `internalPublish(shared_ptr)`, to_middleware_channel.h 85-96. -/
def internalPublishShared (mp : Mapper K M) (P : Pub M) (sent : List M) (event : K) : List M :=
  P.processAndPublish sent (fun newEvent => mp.enc event newEvent)

/-- `processAndPublish`, to_middleware_channel.h 63-69: a new event, default-constructed. -/
def processAndPublish (mp : Mapper K M) (P : Pub M) (k0 : K) (sent : List M) (process : K → Option K) : List M :=
  match process k0 with
  | some newEvent => internalPublishShared mp P sent newEvent
  | none => sent

/-- One call on a `ToMiddlewareChannel`. -/
def toStep (mp : Mapper K M) (P : Pub M) (k0 : K) (sent : List M) : Op K → List M
  | .publish k => internalPublish mp P sent k
  | .publishShared k => internalPublishShared mp P sent k
  | .process p => processAndPublish mp P k0 sent p

/-- The messages sent by a series of calls. -/
def toRun (mp : Mapper K M) (P : Pub M) (k0 : K) (ops : List (Op K)) : List M := ops.foldl (toStep mp P k0) []

/-- `onMiddlewareMessage`, from_middleware_channel.h 56: the internal publisher `Q` gets the transformed event. -/
def onMiddlewareMessage (mp : Mapper K M) (Q : Pub K) (out : List K) (m : M) : List K :=
  Q.processAndPublish out (fun event => mp.dec m event)

/-- The events published internally for a series of received messages. -/
def fromRun (mp : Mapper K M) (Q : Pub K) (ms : List M) : List K := ms.foldl (onMiddlewareMessage mp Q) []

/-- `EventForwarder::onMessageReceived`, event_forwarder.h 50: `publish(event)` of the publisher. -/
def forwardRun (evs : List K) : List (Op K) := evs.map Op.publish

/-! ### The concrete mappers -/

/-- identity_mapper.h 45, 53. -/
def identityMapper (K : Type) : Mapper K K where
  enc k m := some (Mapper.identityTo k m)
  dec m k := some (Mapper.identityFrom m k)

/-- void_caster_mapper.h 46-61 for objects of `n` bytes; a short message is undefined behaviour
(`Mapper.C52_violation_short_message`), represented by `none`. -/
def voidCasterMapper (n : Nat) : Mapper (List Mapper.Byte) (List Mapper.Byte) where
  enc k _ := some k
  dec m _ := if n ≤ m.length then some (m.take n) else none

/-- A cereal archive: `ser k` are the bytes written for `k`; `des` reads an object from the front of the bytes. -/
structure Codec (K : Type) where
  ser : K → List Mapper.Byte
  des : List Mapper.Byte → Option K
  /-- reading stops after the bytes written for the object -/
  self_delimiting : ∀ k rest, des (ser k ++ rest) = some k

/-- json_cereal_mapper.h 47-68: `message = ss.str()`. -/
def jsonMapper (c : Codec K) : Mapper K (List Mapper.Byte) where
  enc k _ := some (c.ser k)
  dec m _ := c.des m

/-- Writing `bytes` into a `std::stringbuf` with content `old` after `pubseekpos(0)` (the initializer of
to_zmq_middleware_provider.h 90-95, which runs before every `processAndPublish`, object_pool_publisher.h 106 and 129): the first
bytes are overwritten, the rest stays, and `str()` (binary_to_zmq_channel.h 74) returns everything. -/
def overwrite (bytes old : List Mapper.Byte) : List Mapper.Byte := bytes ++ old.drop bytes.length

/-- binary_cereal_mapper.h 51-70 on the reused `stringbuf`. -/
def binaryMapper (c : Codec K) : Mapper K (List Mapper.Byte) where
  enc k old := some (overwrite (c.ser k) old)
  dec m _ := c.des m

/-- The binary channel with its pool, seen per object: call number `i` gets object `obj i` (a pooled one or, if the pool is empty, a
new one), whose `stringbuf` still contains what was written to it before. -/
def binarySend (c : Codec K) (contents : Nat → List Mapper.Byte) : List (Nat × K) → List (List Mapper.Byte)
  | [] => []
  | (o, k) :: rest =>
    let msg := overwrite (c.ser k) (contents o)
    msg :: binarySend c (upd contents o msg) rest

end Verif.Channel
