import Verif.Model.ConfigFile

/-!
The language of configuration files and what a file means (C37).
-/

namespace Verif.Cfg.Spec
open Verif.Cfg

/-- A comment at the end of a line, or none. -/
def Comment (c : Str) : Prop := c = [] ∨ ∃ x, c = ';' :: x

/-- Only tabs and spaces. -/
def Blanks (w : Str) : Prop := ∀ c ∈ w, c = '\t' ∨ c = ' '

/-- A line that says nothing: spaces and maybe a comment. -/
def Blank (l : Str) : Prop := ∃ w c, l = w ++ c ∧ (∀ x ∈ w, x = ' ') ∧ Comment c

/-- A key: not empty, no tab, space, `=` or `;`. -/
def Key (k : Str) : Prop := k ≠ [] ∧ ∀ c ∈ k, c ≠ '\t' ∧ c ≠ ' ' ∧ c ≠ '=' ∧ c ≠ ';'

/-- A value as stored: no `;`, and no tab or space at either end. -/
def Value (v : Str) : Prop :=
  (∀ c ∈ v, c ≠ ';') ∧ (∀ c, v.head? = some c → c ≠ '\t' ∧ c ≠ ' ') ∧ (∀ c, v.getLast? = some c → c ≠ '\t' ∧ c ≠ ' ')

/-- What may stand between the key and `=`: nothing, or a blank and anything without `=` and `;`. -/
def Gap (g : Str) : Prop := (g = [] ∨ ∃ c x, g = c :: x ∧ (c = '\t' ∨ c = ' ')) ∧ ∀ c ∈ g, c ≠ '=' ∧ c ≠ ';'

/-- A line that gives the key `k` the value `v`. -/
def Entry (l k v : Str) : Prop :=
  ∃ w1 g w2 w3 c, l = w1 ++ k ++ g ++ ['='] ++ w2 ++ v ++ w3 ++ c ∧ Blanks w1 ∧ Key k ∧ Gap g ∧ Blanks w2 ∧ Value v ∧ Blanks w3 ∧
    Comment c ∧ (∃ x ∈ w2 ++ v ++ w3, x ≠ ' ')

/-- The keys and values given by a sequence of lines, in order. -/
def Gives : List Str → Contents → Prop
  | [], m => m = []
  | l :: ls, m => (Blank l ∧ Gives ls m) ∨ ∃ k v m', Entry l k v ∧ m = (k, v) :: m' ∧ Gives ls m'

/-- One line written by hand: a blank line, or an entry with any blanks around it. -/
inductive Item where
  | blank (spaces : Nat) (comment : Option Str)
  | entry (w1 k w2 w3 v w4 : Str) (comment : Option Str)

def comment : Option Str → Str
  | none => []
  | some c => ';' :: c

/-- The text of the line, without the newline. -/
def Item.text : Item → Str
  | .blank n c => List.replicate n ' ' ++ comment c
  | .entry w1 k w2 w3 v w4 c => w1 ++ k ++ w2 ++ ['='] ++ w3 ++ v ++ w4 ++ comment c

/-- The item is well formed: blanks are blanks, the key is a key, the value is a value and not empty, no newline inside. -/
def Item.ok : Item → Prop
  | .blank _ c => '\n' ∉ comment c
  | .entry w1 k w2 w3 v w4 c => Blanks w1 ∧ Key k ∧ Blanks w2 ∧ Blanks w3 ∧ Value v ∧ v ≠ [] ∧ Blanks w4 ∧
      '\n' ∉ k ∧ '\n' ∉ v ∧ '\n' ∉ comment c

/-- What the item gives. -/
def Item.gives : Item → Option (Str × Str)
  | .blank _ _ => none
  | .entry _ k _ _ v _ _ => some (k, v)

/-- The file: every item on its line. -/
def write (is : List Item) : Str := (is.map (fun i => i.text ++ ['\n'])).flatten

/-- The keys and values of the file. -/
def contents (is : List Item) : Contents := is.filterMap Item.gives

/-- No key twice. -/
def Unique (m : Contents) : Prop := (m.map (·.1)).Nodup

end Verif.Cfg.Spec
