import Verif.Model.Reader

/-!
# `ReadSerializableArray` with the class given by its name
-/

namespace Neo.Reader
open Py

/-- The modules that can be imported, by their absolute names, with their attributes; a class is what `klass()` followed by `item.Deserialize(self)`
does.  Simplification: importing a module that itself raises is not modelled. -/
structure Modules (α : Type) where
  find : Str → Option (Str → Option (IOM α))

/-- `importlib.import_module(module)` without a package. -/
def Modules.importModule (M : Modules α) (module_ : Str) : Except Err (Str → Option (IOM α)) :=
  if module_.take 1 = ['.'] then .error .typeError          -- a relative name
  else if module_.length = 0 then .error .valueError        -- "Empty module name"
  else match M.find module_ with
    | none => .error .importError
    | some attrs => .ok attrs

/-- `name.split('.')`. -/
def splitPoints : Str → List Str
  | [] => [[]]
  | c :: cs =>
    if c = '.' then [] :: splitPoints cs
    else match splitPoints cs with
      | [] => [[c]]
      | w :: ws => (c :: w) :: ws

/-- `'.'.join(parts)`. -/
def joinPoints : List Str → Str
  | [] => []
  | [w] => w
  | w :: ws => w ++ '.' :: joinPoints ws

/-- neocore/IO/BinaryReader.py:319-321: `class_name.split('.')`, all but the last part joined, the attribute of that module. -/
def Modules.resolve (M : Modules α) (className : Str) : Except Err (IOM α) :=
  let parts := splitPoints className
  let module_ := joinPoints parts.dropLast
  let klassname := parts.getLastD []
  match M.importModule module_ with
  | .error e => .error e
  | .ok attrs => match attrs klassname with
    | none => .error .attributeError
    | some klass => .ok klass

/-- neocore/IO/BinaryReader.py:308-334 `ReadSerializableArray`. -/
def readSerializableArrayOf (M : Modules α) (className : Str) (max : Int := maxsize) : IOM (List α) := do
  let klass ← IOM.lift (M.resolve className)
  readSerializableArray klass max

end Neo.Reader
