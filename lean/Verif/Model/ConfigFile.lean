import Verif.Basic

/-!
`ConfigFile` (core/modules/core/include/klepsydra/core/config_file.h), `PropertyFileConvert`
(core/modules/core/include/klepsydra/core/prop_file_convert.h) and `PropertyFileEnvironment` (core/modules/core/src/prop_file_environment.cpp).

A `std::string` is a list of characters.  Trusted: `std::getline`, and the behaviour of `operator>>` described at `readWord`, `readInt`,
`readHex`, `readBool`; reading a `float` is not modelled.
-/

namespace Verif.Cfg

abbrev Str := List Char

/-- `find_first_not_of("\t ")` and friends: the two characters treated as blanks. -/
def isBlank (c : Char) : Bool := c == '\t' || c == ' '

/-- `while (std::getline(file, line))` (config_file.h 103): the lines; nothing after the last newline is not a line. -/
def lines : Str → List Str
  | [] => []
  | c :: cs =>
    if c = '\n' then [] :: lines cs
    else match lines cs with
      | [] => [[c]]
      | l :: ls => (c :: l) :: ls

/-- `removeComment` (32-36). -/
def removeComment (l : Str) : Str := l.takeWhile (· ≠ ';')

/-- `onlyWhitespace` (38-41): spaces only. -/
def onlyWhitespace (l : Str) : Bool := l.all (· == ' ')

/-- `temp.erase(0, temp.find_first_not_of("\t "))` (45, 65, 72). -/
def ltrim (l : Str) : Str := l.dropWhile isBlank

/-- `value.erase(value.find_last_not_of("\t ") + 1)` (66). -/
def rtrim (l : Str) : Str := (ltrim l.reverse).reverse

/-- `line.substr(0, sepPos)` with `sepPos` the first `=` (73, 58). -/
def beforeSep (l : Str) : Str := l.takeWhile (· ≠ '=')

/-- `line.substr(sepPos + 1)` (64); without `=` the position wraps to 0. -/
def afterSep (l : Str) : Str := if '=' ∈ l then (l.dropWhile (· ≠ '=')).tail else l

/-- `validLine` (42-54). -/
def validLine (l : Str) : Bool :=
  let t := ltrim l
  if t.head? = some '=' then false else (afterSep t).any (· ≠ ' ')

/-- `extractKey` (56-61): everything before `=`, cut at the first blank. -/
def extractKey (t : Str) : Str := (beforeSep t).takeWhile (fun c => !isBlank c)

/-- `extractValue` (62-67). -/
def extractValue (t : Str) : Str := rtrim (ltrim (afterSep t))

/-- `contents`: a map as a list of pairs. -/
abbrev Contents := List (Str × Str)

/-- `contents.find(key)` (127, 142). -/
def find (m : Contents) (k : Str) : Option Str :=
  match m with
  | [] => none
  | (k', v) :: m => if k' = k then some v else find m k

/-- The exceptions thrown while parsing; the first two name the line. -/
inductive Err where
  | separator (line : Nat) | format (line : Nat) | duplicate
  deriving DecidableEq, Repr

/-- `extractContents` (69-84). -/
def extractContents (m : Contents) (l : Str) : Except Err Contents :=
  let t := ltrim l
  let k := extractKey t
  match find m k with
  | none => .ok (m ++ [(k, extractValue t)])
  | some _ => .error .duplicate

/-- `parseLine` (86-97). -/
def parseLine (m : Contents) (l : Str) (no : Nat) : Except Err Contents :=
  if '=' ∈ l then
    if validLine l then extractContents m l else .error (.format no)
  else .error (.separator no)

/-- The loop of `extractKeys` (99-116), from a given number of lines read. -/
def parseFrom (m : Contents) (no : Nat) : List Str → Except Err Contents
  | [] => .ok m
  | l :: ls =>
    if l = [] then parseFrom m (no + 1) ls
    else
      let t := removeComment l
      if onlyWhitespace t then parseFrom m (no + 1) ls
      else match parseLine m t (no + 1) with
        | .ok m' => parseFrom m' (no + 1) ls
        | .error e => .error e

/-- `ConfigFile(std::istream &)` (131): the contents, or the exception the constructor throws. -/
def parse (text : Str) : Except Err Contents := parseFrom [] 0 (lines text)

/-! ### `string_to_T` (prop_file_convert.h 38-53) -/

/-- `std::isspace` in the classic locale. -/
def isSpace (c : Char) : Bool := c == ' ' || c == '\t' || c == '\n' || c == '\r' || c == '\x0b' || c == '\x0c'

/-- `val.find("0x", 0) != npos` (43). -/
def hasHex : Str → Bool
  | a :: b :: cs => (a == '0' && b == 'x') || hasHex (b :: cs)
  | _ => false

/-- `iss >> std::string`: skips spaces and takes the next word; fails without one (the string is then empty). -/
def readWord (v : Str) : Option Str :=
  let w := (v.dropWhile isSpace).takeWhile (fun c => !isSpace c)
  if w = [] then none else some w

def digit (c : Char) : Option Nat := if '0'.toNat ≤ c.toNat ∧ c.toNat ≤ '9'.toNat then some (c.toNat - '0'.toNat) else none

def hexDigit (c : Char) : Option Nat :=
  if '0'.toNat ≤ c.toNat ∧ c.toNat ≤ '9'.toNat then some (c.toNat - '0'.toNat)
  else if 'a'.toNat ≤ c.toNat ∧ c.toNat ≤ 'f'.toNat then some (c.toNat - 'a'.toNat + 10)
  else if 'A'.toNat ≤ c.toNat ∧ c.toNat ≤ 'F'.toNat then some (c.toNat - 'A'.toNat + 10) else none

/-- Value of the leading digits in the given base, and whether there was one. -/
def number (dig : Char → Option Nat) (base acc : Nat) (seen : Bool) : Str → Nat × Bool
  | [] => (acc, seen)
  | c :: cs => match dig c with
    | some d => number dig base (acc * base + d) true cs
    | none => (acc, seen)

def intMax : Int := 2147483647
def intMin : Int := -2147483648

/-- The sign. -/
def sign : Str → Int × Str
  | '-' :: cs => (-1, cs)
  | '+' :: cs => (1, cs)
  | cs => (1, cs)

/-- `iss >> int`, decimal: spaces, sign, digits; the rest is left.  Fails without digit and on overflow. -/
def readInt (v : Str) : Option Int :=
  let s := sign (v.dropWhile isSpace)
  let n := number digit 10 0 false s.2
  let x := s.1 * (n.1 : Int)
  if n.2 = true ∧ intMin ≤ x ∧ x ≤ intMax then some x else none

/-- `iss >> std::hex >> int` with the failure ignored: 0 without digits, the nearest bound on overflow. -/
def readHex (v : Str) : Int :=
  let s := sign (v.dropWhile isSpace)
  let r := match s.2 with
    | '0' :: 'x' :: cs => cs
    | '0' :: 'X' :: cs => cs
    | cs => cs
  let n := number hexDigit 16 0 false r
  let x := s.1 * (n.1 : Int)
  if x > intMax then intMax else if x < intMin then intMin else x

/-- `string_to_T<std::string>`; `none` is the exception. -/
def toStr (v : Str) : Option Str := if hasHex v then some ((readWord v).getD []) else readWord v

/-- `string_to_T<int>`. -/
def toInt (v : Str) : Option Int := if hasHex v then some (readHex v) else readInt v

/-- `string_to_T<bool>` without hexadecimal prefix (no `boolalpha`): 0 and 1 only. -/
def toBool (v : Str) : Option Bool :=
  match readInt v with
  | some x => if x = 0 then some false else if x = 1 then some true else none
  | none => none

/-- `getValueOfKey` (135-143), for any conversion; `none` is the exception. -/
def getValueOfKey {V : Type} (conv : Str → Option V) (m : Contents) (k : Str) (dflt : V) : Option V :=
  match find m k with
  | none => some dflt
  | some v => conv v

/-- `PropertyFileEnvironment::getPropertyX` (prop_file_environment.cpp 25-59): value and result; the root is ignored. -/
def envGet {V : Type} (conv : Str → Option V) (m : Contents) (k : Str) (dflt : V) (_root : Str) : Option (V × Bool) :=
  (getValueOfKey conv m k dflt).map (fun v => (v, true))

/-- `PropertyFileEnvironment::setPropertyX` (61-91): logs that it is not supported. -/
def envSet {V : Type} (m : Contents) (_k : Str) (_v : V) (_root : Str) : Contents := m

end Verif.Cfg
