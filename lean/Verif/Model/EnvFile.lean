import Verif.Spec.EnvFile

/-!
Reading of configuration texts: `ConfigurationEnvironment(fileName, root)`, `loadFile`, `updateConfiguration`, `exportEnvironment`
(core/modules/core/src/configuration_environment.cpp 27-38, 128-141, 156-181), `serialize` (core/modules/core/include/klepsydra/core/configuration_environment.h 153-176)
and the loading of a map (core/modules/core/include/klepsydra/core/property.h 122-144).

The archive (cereal) is taken to behave as follows: a text that is not JSON is refused when the archive is made; a section is looked for by its name; if it is not there
an exception is thrown and the archive is as before; a value of another type throws, and the archive then stays inside the section it was reading, so
that no later section is found (a property that is named like a section is not considered).
-/

namespace Verif.Env
open Spec

/-- `load` of a map, property.h 128-143: the entries are put into the map one after the other (`emplace_hint` does nothing if the key exists), until the end or until a
value throws. -/
def loadEntries {V : Type} (m : List (String × V)) : List (String × Option V) → List (String × V) × Bool
  | [] => (m, false)
  | (k, some v) :: r => loadEntries (insert m k v).1 r
  | (_, none) :: _ => (m, true)

/-- One `try` block of `serialize` (configuration_environment.h 155-175): the exception is caught and forgotten.  The flag says that the archive is lost inside an earlier
section.  The map is cleared first (property.h 124). -/
def readSection (f : Text) (r : CEnv × Bool) (k : Kind) : CEnv × Bool :=
  if r.2 then r
  else match f k with
    | none => r
    | some l => (r.1.set k (loadEntries [] l).1, (loadEntries [] l).2)

/-- The order of the sections in `serialize` (configuration_environment.h 156, 161, 166, 171). -/
def archiveOrder : List Kind := [.string, .float, .int, .bool]

/-- `serialize` with an input archive. -/
def readArchive (e : CEnv) (f : Text) : CEnv := (archiveOrder.foldl (readSection f) (e, false)).1

/-- `loadFile` (configuration_environment.cpp 128-141); `none`: not JSON, or no such file. -/
def loadText (e : CEnv) (file : Option Text) (root : String) : CEnv × Bool := cLoad e (file.map (readArchive .empty)) root

/-- The constructor (27-38): what the archive throws leaves the constructor (`none`); the result of `copyFrom` is not looked at. -/
def newFromText (file : Option Text) (root : String) : Option CEnv := file.map fun f => (cCopy .empty (readArchive .empty f) root).1

/-- `updateConfiguration` (156-168). -/
def updateText (e : CEnv) : Option Text → CEnv × Bool
  | none => (e, false)
  | some f => (readArchive e f, true)

/-- `exportEnvironment` (170-180), `save` of a map (property.h 108-118): all four sections. -/
def exportText (e : CEnv) : Text := fun k => some ((e.m k).map fun p => (p.1, some p.2))

end Verif.Env
