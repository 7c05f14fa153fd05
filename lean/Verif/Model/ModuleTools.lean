import Verif.Model.DiscreteHilbert

/-! Model of `netket/utils/moduletools.py`, `netket/utils/optional_deps.py`, of the shims `netket/optim.py` and
`netket/variational.py`. A module is the dictionary of its attributes (attributes that python adds by itself, like
`__class__`, are not counted); names are lists of characters. -/

namespace Verif.ModTools

open Verif.Hilbert (Err)

/-- names of attributes and files (moduletools.py:27-30). -/
abbrev Name := List Char

/-- the attributes of a module (moduletools.py:27: `sys.modules[module_name]`). -/
abbrev Attrs (V : Type) := Name → Option V

/-- `setattr(module, name, value)` (moduletools.py:39). -/
def setattr {V : Type} (m : Attrs V) (n : Name) (v : V) : Attrs V := fun k => if k = n then some v else m k

/-- `delattr(module, name)` (moduletools.py:40, 43) for an attribute that exists. -/
def delattr {V : Type} (m : Attrs V) (n : Name) : Attrs V := fun k => if k = n then none else m k

/-- the suffix `.py` (moduletools.py:31). -/
def py : Name := ['.', 'p', 'y']

/-- `file.endswith(".py") and not file == "__init__.py"`, then `file[:-3]` (moduletools.py:31-32). -/
def modName (file : Name) : Option Name :=
  if file.drop (file.length - 3) = py ∧ file ≠ "__init__.py".toList then some (file.take (file.length - 3)) else none

/-- the body of the loop over the files (moduletools.py:31-40); `mod_name[0]` raises IndexError for the empty name. -/
def hideFile {V : Type} (ignore : List Name) (m : Attrs V) (file : Name) : Attrs V × Option Err :=
  match modName file with
  | none => (m, none)
  | some n =>
    match m n with
    | none => (m, none)
    | some v =>
      match n with
      | [] => (m, some .indexError)
      | c :: _ =>
        if c ≠ '_' ∧ n ∉ ignore then (delattr (setattr m ('_' :: n) v) n, none) else (m, none)

/-- the loop over `os.listdir(module_path)` (moduletools.py:30). -/
def hideLoop {V : Type} (ignore : List Name) : Attrs V → List Name → Attrs V × Option Err
  | m, [] => (m, none)
  | m, f :: fs =>
    match hideFile ignore m f with
    | (m', some e) => (m', some e)
    | (m', none) => hideLoop ignore m' fs

/-- the name of the function itself (moduletools.py:42). -/
def selfName : Name := "_hide_submodules".toList

/-- `_hide_submodules(module_name, remove_self=…, ignore=…)` (moduletools.py:18-43), given the directory listing. -/
def hideSubmodules {V : Type} (m : Attrs V) (files : List Name) (removeSelf : Bool) (ignore : List Name) :
    Attrs V × Option Err :=
  match hideLoop ignore m files with
  | (m', some e) => (m', some e)
  | (m', none) => (if removeSelf ∧ (m' selfName).isSome then delattr m' selfName else m', none)

/-- the list `__all__` of a module, if there is one (moduletools.py:67-70). -/
abbrev All := Option (List Name)

/-- `export(fn)` (moduletools.py:58-71): the effect on `__all__`; the function itself is returned. -/
def export_ (all : All) (fnName : Name) : All :=
  match all with
  | some l => some (l ++ [fnName])
  | none => some [fnName]

/-- `hide_unexported(module_name)` (moduletools.py:74-89): what the `__dir__` installed in the module returns when called. -/
def dirOf (all : All) : Except Err (List Name) :=
  match all with
  | some l => .ok l
  | none => .error .attributeError

/-- the public names of the new module at the import of the shim (optim.py:24, variational.py:24). -/
def deprecatedNames {V : Type} (new : List (Name × V)) : List Name :=
  (new.map Prod.fst).filter fun n => n.head? ≠ some '_'

/-- `__getattr__(name)` of the shims (optim.py:27-35, variational.py:27-35); `names` was computed at import. -/
def shimGetattr {V : Type} (names : List Name) (new : List (Name × V)) (n : Name) : Except Err V :=
  if n ∈ names then
    match new.lookup n with
    | some v => .ok v
    | none => .error .attributeError
  else .error .attributeError

/-- `__dir__()` of the shims (optim.py:38-39, variational.py:38-39). -/
def shimDir {V : Type} (new : List (Name × V)) : List Name := new.map Prod.fst

end Verif.ModTools
