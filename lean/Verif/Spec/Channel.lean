import Verif.Basic

/-! Specification of the middleware channels: what is published, and what a lossless transport must deliver. -/

namespace Verif.Channel

/-- A publication on a channel of events of type `K`.  A process function may fail (`none` = exception). -/
inductive Op (K : Type) where
  /-- `publish(event)` -/
  | publish (k : K)
  /-- `publish(shared_ptr)` -/
  | publishShared (k : K)
  /-- `processAndPublish(process)` -/
  | process (p : K → Option K)

/-- The event an operation publishes; `k0` is the default event `K()`. -/
def Op.value {K : Type} (k0 : K) : Op K → Option K
  | .publish k => some k
  | .publishShared k => some k
  | .process p => p k0

/-- The events published, in order. -/
def published {K : Type} (k0 : K) (ops : List (Op K)) : List K := ops.filterMap (Op.value k0)

end Verif.Channel
