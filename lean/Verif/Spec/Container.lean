/-!
Specification of a container (C42): what was attached and not detached.
-/

namespace Verif.Cont

/-- A statistics object (a service is represented by its statistics): its identity and the name it carries. -/
structure Item where
  id : Nat
  name : String
  deriving DecidableEq, Repr

inductive Kind where
  | service
  | function
  | publication
  | subscription
  deriving DecidableEq, Repr

/-- Calls of the API with non-null pointers (a null pointer is ignored by every function). -/
inductive Op where
  | start
  | stop
  | attachService (x : Item)
  | detachService (x : Item)
  /-- attach(ServiceStats*), attach(FunctionStats*), attach(PublicationStats*), attach(SubscriptionStats*) -/
  | attach (k : Kind) (x : Item)
  /-- the same for detach, which does not exist for `ServiceStats*` -/
  | detach (k : Kind) (x : Item)
  deriving DecidableEq, Repr

/-- The statistics of kind `k` that should be held after a call, given those held before: attaching adds one, detaching takes away that one. -/
def heldStep (k : Kind) (l : List Item) : Op → List Item
  | .attachService x => if k = .service then l ++ [x] else l
  | .detachService x => if k = .service then l.erase x else l
  | .attach j x => if j = k then l ++ [x] else l
  | .detach j x => if j = k then l.erase x else l
  | _ => l

def held (k : Kind) (ops : List Op) : List Item := ops.foldl (heldStep k) []

/-- The services that should be held. -/
def servicesStep (l : List Item) : Op → List Item
  | .attachService x => l ++ [x]
  | .detachService x => l.erase x
  | _ => l

def services (ops : List Op) : List Item := ops.foldl servicesStep []

/-- The items of kind `k` a call mentions. -/
def mentions (k : Kind) : Op → List Item
  | .attachService x => if k = .service then [x] else []
  | .detachService x => if k = .service then [x] else []
  | .attach j x => if j = k then [x] else []
  | .detach j x => if j = k then [x] else []
  | _ => []

/-- Names identify the statistics of kind `k`. -/
def NamesDistinct (k : Kind) (ops : List Op) : Prop :=
  ∀ x y, x ∈ ops.flatMap (mentions k) → y ∈ ops.flatMap (mentions k) → x.name = y.name → x = y

/-- `ServiceStats` cannot be detached on their own. -/
def Valid : Op → Prop
  | .detach .service _ => False
  | _ => True

end Verif.Cont
