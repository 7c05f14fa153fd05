import Verif.Model.History

/-! Attribute access, iteration, conversion and copies of `History` (netket/utils/history.py:157-168, 196-253).

Attributes are looked up as python does: names of the class first (methods, and properties, which are evaluated), then the attributes of the object, then
`__getattr__`, which itself reads the attribute `_value_dict`.  An object made by `__new__` alone, as `copy` and `pickle` make it, has no attributes yet.
The number of nested calls python allows is an argument. -/

namespace Verif.Hist
open Verif.Hilbert (Err)

variable {D V : Type}

/-- names of the class that are not properties (history.py:163-253); the special methods of `object` are left out except those defined here. -/
def methodNames : List String :=
  ["__init__", "__len__", "__getitem__", "_get_slice", "__contains__", "keys", "append", "get", "to_dict", "__array__", "__iter__", "__getattr__", "__repr__", "__str__"]

/-- the attributes of an object after `__init__` (history.py:151-155). -/
def slotNames : List String := ["_value_dict", "_value_name", "_len", "_single_value", "_keys"]

/-- what an attribute is: a method, one of the attributes of `__init__`, or a column
(netket/utils/history.py:242-247). -/
inductive Attr (D V : Type) where
  | method (name : String)
  | slot (name : String)
  | col (c : Col D V)

/-- how an attribute access ends (netket/utils/history.py:242-247). -/
inductive Res (A : Type) where
  | ok (a : A)
  | attributeError
  | keyError
  | recursionError

/-- `d[key]` of a dictionary (history.py:159, 163). -/
def dictGet (d : List (String × Col D V)) (key : Option String) : Res (Attr D V) :=
  match key with
  | none => .keyError
  | some k => match d.lookup k with
    | some c => .ok (.col c)
    | none => .keyError

/-- continuing with the attribute `_value_dict`, or with the exception it ended in (history.py:159, 163, 244). -/
def Res.andThen {A B : Type} (r : Res A) (f : Res B) : Res B :=
  match r with
  | .ok _ => f
  | .attributeError => .attributeError
  | .keyError => .keyError
  | .recursionError => .recursionError

/-- `__getattr__` once `self._value_dict` is there (history.py:244-247). -/
def columnAttr (h : History D V) (name : String) : Res (Attr D V) :=
  match h.valueDict.lookup name with
  | some c => .ok (.col c)
  | none => .attributeError

/-- the properties `iters` and `values` once `self._value_dict` is there (history.py:157-163). -/
def propertyAttr (h : History D V) (name : String) : Res (Attr D V) :=
  if name = "iters" then dictGet h.valueDict (some "iters") else dictGet h.valueDict h.valueName

/-- one attribute access, `inner` being the accesses it makes in turn; `self` is `none` before `__init__` (history.py:157-163, 242-247). -/
def getattrStep (inner : String → Res (Attr D V)) (self : Option (History D V)) (name : String) : Res (Attr D V) :=
  if name ∈ methodNames then .ok (.method name)
  else if name = "iters" ∨ name = "values" then (inner "_value_dict").andThen (self.elim .attributeError fun h => propertyAttr h name)
  else self.elim ((inner "_value_dict").andThen .attributeError) fun h =>
    if name ∈ slotNames then .ok (.slot name) else (inner "_value_dict").andThen (columnAttr h name)

/-- `getattr(self, name)` with `limit` nested calls left (history.py:157-163, 242-247). -/
def getattr : Nat → Option (History D V) → String → Res (Attr D V)
  | 0, _, _ => .recursionError
  | limit + 1, self, name => getattrStep (getattr limit self) self name

/-- history.py:161-163: `values`. -/
def History.values (h : History D V) : Except Err (Col D V) :=
  match h.valueName with
  | none => .error .keyError
  | some k => match h.valueDict.lookup k with
    | some c => .ok c
    | none => .error .keyError

/-- history.py:157-159: `iters`. -/
def History.iters (h : History D V) : Except Err (Col D V) :=
  match h.valueDict.lookup "iters" with
  | some c => .ok c
  | none => .error .keyError

/-- history.py:213-217: `get`. -/
def History.get (h : History D V) : Except Err (Col D V × Col D V) :=
  match h.iters with
  | .error e => .error e
  | .ok i => match h.values with
    | .error e => .error e
    | .ok v => .ok (i, v)

/-- history.py:234-240: `list(history)`. -/
def History.toList (h : History D V) : Except Err (List (V × V)) :=
  match h.get with
  | .error e => .error e
  | .ok (i, v) => .ok (i.rows.zip v.rows)

/-- history.py:219-225: `to_dict`, the dictionary of the object itself. -/
def History.toDict (h : History D V) : List (String × Col D V) := h.valueDict

/-- history.py:196-197: `key in history`. -/
def History.contains (h : History D V) (key : String) : Bool := (h.valueDict.lookup key).isSome

/-- `copy.copy(history)`, `copy.deepcopy(history)` and `pickle.loads(pickle.dumps(history))`: an object is made without `__init__`, asked for
    `__setstate__`, and gets the attributes (history.py:242-247; the modules `copy` and `pickle` from their source). -/
def copyHistory (limit : Nat) (h : History D V) : Res (History D V) :=
  match getattr limit (none : Option (History D V)) "__setstate__" with
  | .ok _ => .ok h
  | .attributeError => .ok h
  | .keyError => .keyError
  | .recursionError => .recursionError

end Verif.Hist
