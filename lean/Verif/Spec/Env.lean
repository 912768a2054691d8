import Verif.Model.Env

/-!
What a user of an environment expects (C38-C41), independent of how properties are stored.
-/

namespace Verif.Env.Spec
open Verif.Env

/-- The name of a property: its type, its root node, its key. -/
structure Name where
  kind : Kind
  root : String
  key : String
  deriving DecidableEq

/-- One write of a history. -/
structure Write where
  name : Name
  v : name.kind.Val

/-- The value of the last write to that very name. -/
def lastWrite (ws : List Write) (n : Name) : Option n.kind.Val :=
  match ws with
  | [] => none
  | w :: ws =>
    match lastWrite ws n with
    | some v => some v
    | none => if h : w.name = n then some (h ▸ w.v) else none

/-- What the user reads: the value and `true`, or the default and `false`. -/
def readAs {V : Type} (o : Option V) (dflt : V) : V × Bool :=
  match o with
  | some v => (v, true)
  | none => (dflt, false)

/-- The key has no separator in it. -/
def Plain (key : String) : Prop := '/' ∉ key.toList

instance (key : String) : Decidable (Plain key) := inferInstanceAs (Decidable (_ ∉ _))

end Verif.Env.Spec
