import Verif.Model.Logging

/-! Model of netket/vqs/experimental.py: loading the variables that were saved to a file, a folder or an archive (see `Model/Logging.lean` for `StateLog`).

Variables are nested dictionaries of arrays.  `flax.serialization.to_bytes` and the parser of `from_bytes` are arbitrary functions on them; how
`from_bytes` puts the parsed dictionaries into the shape of the given variables is modelled (`flax.serialization.from_state_dict` for dictionaries). -/

namespace Verif.Load
open Verif.Hilbert (Err)
open Verif.Log (Name fileName)

/-- variables: nested dictionaries with arrays at the leaves
(netket/vqs/experimental.py:8, 52-53). -/
inductive Tree (A : Type) where
  | leaf (a : A)
  | node (items : List (String × Tree A))

/-- what opening and reading may raise: no such file (builtin `open`, `TarFile`), or another exception
(netket/vqs/experimental.py:48-53, 68-75). -/
inductive LoadErr where
  | notFound
  | err (e : Err)
  deriving DecidableEq

mutual
/-- `flax.serialization.from_state_dict(target, state)` (experimental.py:53, 75): the keys of the target are looked up; what is found at a leaf of the
    target is returned as it is.  A missing key is an exception, and so are keys looked up in an array. -/
def restore {A : Type} : Tree A → Tree A → Except Err (Tree A)
  | .leaf _, s => .ok s
  | .node ts, .node ss =>
    match restoreItems ts ss with
    | .error e => .error e
    | .ok rs => .ok (.node rs)
  | .node [], .leaf _ => .ok (.node [])
  | .node (_ :: _), .leaf _ => .error .indexError

/-- the entries of a dictionary (experimental.py:53, 75). -/
def restoreItems {A : Type} : List (String × Tree A) → List (String × Tree A) → Except Err (List (String × Tree A))
  | [], _ => .ok []
  | (k, t) :: ts, ss =>
    match ss.lookup k with
    | none => .error .keyError
    | some s =>
      match restore t s with
      | .error e => .error e
      | .ok r =>
        match restoreItems ts ss with
        | .error e => .error e
        | .ok rs => .ok ((k, r) :: rs)
end

/-- an exception of python among those of loading (netket/vqs/experimental.py:48-53, 68-75). -/
def lift {X : Type} : Except Err X → Except LoadErr X
  | .error e => .error (.err e)
  | .ok x => .ok x

/-- experimental.py:46-48: the name of the file to open; the extension is added unless the file exists or has it. -/
def resolve (isfile : Name → Bool) (name : Name) : Name :=
  if isfile name then name
  else match name with
    | .mpack s => .mpack s
    | .other n => .mpack n

/-- experimental.py:8-53: `variables_from_file`, among the files of a folder. -/
def fromFile {A B : Type} (parse : B → Tree A) (files : List (Name × B)) (name : Name) (target : Tree A) : Except LoadErr (Tree A) :=
  match files.lookup (resolve (fun n => (files.lookup n).isSome) name) with
  | none => .error .notFound
  | some b => lift (restore target (parse b))

/-- names of archives: with the extension `.tar`, or without (netket/vqs/experimental.py:68-70). -/
inductive TarName where
  | tar (stem : String)
  | other (name : String)
  deriving DecidableEq

/-- experimental.py:68-70. -/
def resolveTar (isfile : TarName → Bool) (name : TarName) : TarName :=
  if isfile name then name
  else match name with
    | .tar s => .tar s
    | .other n => .tar n

/-- `TarFile.getmember` (experimental.py:73): the last member of that name, or KeyError. -/
def getMember {B : Type} (members : List (Name × B)) (name : Name) : Except Err B :=
  match members.reverse.lookup name with
  | none => .error .keyError
  | some b => .ok b

/-- experimental.py:56-75: `variables_from_tar`. -/
def fromTar {A B : Type} (parse : B → Tree A) (archives : List (TarName × List (Name × B))) (name : TarName) (target : Tree A) (i : Int) :
    Except LoadErr (Tree A) :=
  match archives.lookup (resolveTar (fun n => (archives.lookup n).isSome) name) with
  | none => .error .notFound
  | some members =>
    match getMember members (fileName i) with
    | .error e => .error (.err e)
    | .ok b => lift (restore target (parse b))

end Verif.Load
