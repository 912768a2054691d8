import Verif.Model.Env

/-!
What a configuration text says (C93), independent of how it is read.
-/

namespace Verif.Env.Spec
open Verif.Env

/-- A section of a text: its entries in the order of the text, each with its value, or `none` if the value has not the type of the section; or there is no such
section. -/
abbrev Section (V : Type) := Option (List (String × Option V))

/-- A text that is well formed JSON: what it has for each type (`StringProperties`, `FloatProperties`, `IntProperties`, `BoolProperties`). -/
abbrev Text := (k : Kind) → Section k.Val

/-- The value a list of entries gives to a key: that of the first entry with this key. -/
def valueOf {V : Type} (key : String) : List (String × Option V) → Option V
  | [] => none
  | (k, v) :: r => if k = key then v else valueOf key r

/-- The value the text gives to a property. -/
def inText (f : Text) (k : Kind) (key : String) : Option k.Val := (f k).bind (valueOf key)

/-- All values of the section of that type have that type. -/
def TypedSec (f : Text) (k : Kind) : Prop := ∀ l, f k = some l → ∀ p ∈ l, p.2 ≠ none

/-- All values of the text have the type of their section. -/
def Typed (f : Text) : Prop := ∀ k, TypedSec f k

/-- The sections that are read before that of a type: string, float, int, bool is the order. -/
def earlier : Kind → List Kind
  | .string => []
  | .float => [.string]
  | .int => [.string, .float]
  | .bool => [.string, .float, .int]

end Verif.Env.Spec
