import Verif.Model.DiscreteHilbert

/-! Model of `netket/utils/config_flags.py`. Strings are lists of characters; `str.lower` acts on ASCII
letters only (no other character is lowered to a letter used here); the parser of `int(...)` for strings
is an argument. The environment is a function. -/

namespace Verif.Config

open Verif.Hilbert (Err)

/-- strings (netket/utils/config_flags.py:19-50). -/
abbrev Str := List Char

/-- values passed to `update` or stored as flags (netket/utils/config_flags.py:68-78, 86-92). -/
inductive Val
  | bool (b : Bool)
  | int (i : Int)
  | str (s : Str)
  deriving DecidableEq

/-- the argument `type` of `define` (netket/utils/config_flags.py:43-50, 68). -/
inductive Ty
  | int | bool | other
  deriving DecidableEq

/-- config_flags.py:31: the words for true. -/
def yesWords : List Str := [['y'], ['y', 'e', 's'], ['t'], ['t', 'r', 'u', 'e'], ['o', 'n'], ['1']]

/-- config_flags.py:33: the words for false. -/
def noWords : List Str := [['n'], ['n', 'o'], ['f'], ['f', 'a', 'l', 's', 'e'], ['o', 'f', 'f'], ['0']]

/-- `str(default)` of a boolean (config_flags.py:29). -/
def strBool (b : Bool) : Str := if b then ['T', 'r', 'u', 'e'] else ['F', 'a', 'l', 's', 'e']

/-- config_flags.py:19-36 `bool_env`; `v` is the environment variable, if set. -/
def boolEnv (v : Option Str) (dflt : Bool) : Except Err Bool :=
  let s := (v.getD (strBool dflt)).map Char.toLower
  if s ∈ yesWords then .ok true
  else if s ∈ noWords then .ok false
  else .error .valueError

/-- config_flags.py:39-41 `int_env`. -/
def intEnv (parse : Str → Option Int) (v : Option Str) (dflt : Int) : Except Err Int :=
  match v with
  | none => .ok dflt
  | some s =>
    match parse s with
    | some i => .ok i
    | none => .error .valueError

/-- config_flags.py:44-50 `get_env`; the default of a boolean or an integer flag is given in the argument of its type. -/
def getEnv (parse : Str → Option Int) (v : Option Str) : Ty → Bool → Int → Except Err Val
  | .int, _, i => match intEnv parse v i with
    | .ok i => .ok (.int i)
    | .error e => .error e
  | .bool, b, _ => match boolEnv v b with
    | .ok b => .ok (.bool b)
    | .error e => .error e
  | .other, _, _ => .error .typeError

/-- a dictionary (netket/utils/config_flags.py:61-66). -/
abbrev Dict (A : Type) := Str → Option A

/-- `d[name] = a` (netket/utils/config_flags.py:68-78, 86-92). -/
def Dict.set {A : Type} (d : Dict A) (name : Str) (a : A) : Dict A := fun k => if k = name then some a else d k

/-- config_flags.py:61-67: the dictionaries of a `Config`. -/
structure Cfg where
  values : Dict Val
  types : Dict Ty
  runtime : Dict Bool

/-- config_flags.py:62-65. -/
def empty : Cfg := ⟨fun _ => none, fun _ => none, fun _ => none⟩

/-- config_flags.py:69-78 `define`: type and `runtime` are stored before the environment is read. -/
def define (parse : Str → Option Int) (env : Str → Option Str) (c : Cfg) (name : Str) (ty : Ty) (db : Bool)
    (di : Int) (rt : Bool) : Cfg × Option Err :=
  if (c.values name).isSome then (c, some .keyError)
  else
    let c := { c with types := c.types.set name ty, runtime := c.runtime.set name rt }
    match getEnv parse (env name) ty db di with
    | .error e => (c, some e)
    | .ok v => ({ c with values := c.values.set name v }, none)

/-- config_flags.py:53-58, 80-85: `FLAGS[name]`. -/
def flag (c : Cfg) (name : Str) : Except Err Val :=
  match c.values name with
  | some v => .ok v
  | none => .error .keyError

/-- `type(value)` (config_flags.py:95). -/
def convert (parse : Str → Option Int) : Ty → Val → Except Err Val
  | .bool, .bool b => .ok (.bool b)
  | .bool, .int i => .ok (.bool (i ≠ 0))
  | .bool, .str s => .ok (.bool (s ≠ []))
  | .int, .bool b => .ok (.int (if b then 1 else 0))
  | .int, .int i => .ok (.int i)
  | .int, .str s => match parse s with
    | some i => .ok (.int i)
    | none => .error .valueError
  | .other, _ => .error .typeError

/-- config_flags.py:87-95 `update`. -/
def update (parse : Str → Option Int) (c : Cfg) (name : Str) (v : Val) : Cfg × Option Err :=
  match c.types name with
  | none => (c, some .keyError)
  | some ty =>
    match convert parse ty v with
    | .error e => (c, some e)
    | .ok v => ({ c with values := c.values.set name v }, none)

end Verif.Config
