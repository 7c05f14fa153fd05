import Verif.Model.DiscreteHilbert

/-!
NetKet dataclasses, construction and inheritance: netket/utils/struct/dataclass.py.

A class is the list of its levels, the most derived first (single inheritance, all of them decorated). Names of fields and of cached properties are natural
numbers. Class definitions which python's `dataclass` refuses (a field without default after one with default) are not considered. A value is `none` for the
sentinel `Uninitialized` (lines 74-82). Keyword arguments are association lists, as a python dict the keys of which are distinct.
-/

namespace Verif.DataclassInit
open Verif.Hilbert (Err)

/-- a parameter of the generated `__init__` (dataclass.py:218-232): a field or the cache of a property, whose name is `_cache_name` (lines 60-61). -/
inductive Name where
  | field (n : Nat)
  | cache (p : Nat)
deriving DecidableEq

/-- arguments of a call: positional and keyword arguments (dataclass.py:300). -/
structure Args (V : Type) where
  pos : List (Option V) := []
  kw : List (Name × Option V) := []

/-- the method of a cached property (dataclass.py:106-129): a function of the fields, or one that also uses `super().p`. -/
inductive Body (V : Type) where
  | plain (f : (Nat → Option V) → V)
  | withSuper (g : (Nat → Option V) → V → V)

/-- what the class statement of one level contains (dataclass.py:340-399): annotated fields with their defaults, `__pre_init__` (its first argument is `super().__pre_init__`),
    and cached properties. -/
structure Level (V : Type) where
  fields : List (Nat × Option (Option V)) := []
  pre : Option ((Args V → Except Err (Args V)) → Args V → Except Err (Args V)) := none
  cached : List (Nat × Body V) := []

/-- an instance: the attributes set by the generated `__init__`, and the cached hash (dataclass.py:296-299). -/
structure Obj (V H : Type) where
  vals : List (Name × Option V)
  hash : Option H

variable {V H : Type}

/-- an annotation added to the inherited fields (`dataclasses.dataclass`, called in dataclass.py:384): a new name is appended, a known one keeps its place. -/
def setField (fs : List (Nat × Option (Option V))) (f : Nat × Option (Option V)) : List (Nat × Option (Option V)) :=
  if f.1 ∈ fs.map Prod.fst then fs.map fun e => if e.1 = f.1 then f else e else fs ++ [f]

/-- `__dataclass_fields__` after `purge_cache_fields` (dataclass.py:257-267, 384-385). -/
def fieldsOf : List (Level V) → List (Nat × Option (Option V))
  | [] => []
  | l :: bases => l.fields.foldl setField (fieldsOf bases)

/-- `__dataclass_caches__` (dataclass.py:160-166, 209-215, 254): the own ones, then those of the bases. -/
def cachesOf : List (Level V) → List Nat
  | [] => []
  | l :: bases => l.cached.map Prod.fst ++ (cachesOf bases).filter fun p => decide (p ∉ l.cached.map Prod.fst)

/-- the parameters of the generated `__init__` with their defaults (dataclass.py:218-232, 384): the caches are annotated last, with the default `Uninitialized`. -/
def params (c : List (Level V)) : List (Name × Option (Option V)) :=
  (fieldsOf c).map (fun f => (Name.field f.1, f.2)) ++ (cachesOf c).map fun p => (Name.cache p, some none)

/-- an entry of an association list, a python dict (the keyword arguments of dataclass.py:300). -/
def lookup (l : List (Name × Option V)) (n : Name) : Option (Option V) := (l.find? fun e => decide (e.1 = n)).map Prod.snd

/-- values of the parameters that are not given by position (python calls, dataclass.py:293): by keyword or default. -/
def bindRest (kw : List (Name × Option V)) : List (Name × Option (Option V)) → Except Err (List (Name × Option V))
  | [] => .ok []
  | p :: ps =>
    match (lookup kw p.1).or p.2 with
    | none => .error .typeError
    | some v => match bindRest kw ps with
      | .error e => .error e
      | .ok r => .ok ((p.1, v) :: r)

/-- a call of a python function without `*args` and `**kwargs` (dataclass.py:292-293; also the strict signatures of `__pre_init__`): the values of its parameters. -/
def bind (ps : List (Name × Option (Option V))) (a : Args V) : Except Err (List (Name × Option V)) :=
  if ps.length < a.pos.length then .error .typeError
  else if a.kw.any fun e => decide (e.1 ∉ ps.map Prod.fst) then .error .typeError
  else if a.kw.any fun e => decide (e.1 ∈ (ps.take a.pos.length).map Prod.fst) then .error .typeError
  else match bindRest a.kw (ps.drop a.pos.length) with
    | .error e => .error e
    | .ok r => .ok (((ps.take a.pos.length).map Prod.fst).zip a.pos ++ r)

/-- `self.__pre_init__(*args, **kwargs)` (dataclass.py:274-284): a level without the method gets one that calls the one of the base, if there is any. -/
def preInit : List (Level V) → Args V → Except Err (Args V)
  | [], _ => .error .attributeError
  | l :: bases, a => match l.pre with
    | some f => f (preInit bases) a
    | none => match bases with
      | [] => .ok a
      | _ :: _ => preInit bases a

/-- `__init_dataclass__` (dataclass.py:288): the `__init__` generated by python; then the cached hash is cleared (lines 296-299). -/
def initDataclass (c : List (Level V)) (a : Args V) : Except Err (Obj V H) :=
  match bind (params c) a with
  | .error e => .error e
  | .ok vals => .ok ⟨vals, none⟩

/-- the new `__init__` (dataclass.py:290-306), with `__skip_preprocess`. -/
def construct (c : List (Level V)) (skip : Bool) (a : Args V) : Except Err (Obj V H) :=
  if skip then initDataclass c a
  else match preInit c a with
    | .error e => .error e
    | .ok b => initDataclass c b

/-- `getattr(self, name)` (dataclass.py:422-424). -/
def Obj.get (o : Obj V H) (n : Name) : Option V := (lookup o.vals n).join

/-- `object.__setattr__(self, cache_name, v)` (dataclass.py:189). -/
def Obj.setCache (o : Obj V H) (p : Nat) (v : V) : Obj V H :=
  { o with vals := o.vals.map fun e => if e.1 = .cache p then (e.1, some v) else e }

/-- keyword arguments given by `replace` (dataclass.py:411-417): the updates with all caches set to `Uninitialized`, then the remaining fields (`dataclasses.replace`). -/
def replaceKw (c : List (Level V)) (o : Obj V H) (updates : List (Name × Option V)) : List (Name × Option V) :=
  let u := (updates.filter fun e => decide (∀ p ∈ cachesOf c, e.1 ≠ .cache p)) ++ (cachesOf c).map fun p => (Name.cache p, none)
  u ++ ((fieldsOf c).filter fun f => decide (Name.field f.1 ∉ u.map Prod.fst)).map fun f => (Name.field f.1, o.get (.field f.1))

/-- `obj.replace(**updates)` (dataclass.py:411-417): the class is called, thus `__pre_init__` as well. -/
def replace (c : List (Level V)) (o : Obj V H) (updates : List (Name × Option V)) : Except Err (Obj V H) :=
  construct c false { kw := replaceKw c o updates }

/-- the names of the fields that are pytree nodes (dataclass.py:394-402). -/
def dataFields (c : List (Level V)) (node : Nat → Bool) : List Name := ((fieldsOf c).filter fun f => node f.1).map fun f => .field f.1

/-- the names of the other fields, to which the caches are added (dataclass.py:394-409). -/
def metaFields (c : List (Level V)) (node : Nat → Bool) : List Name :=
  ((fieldsOf c).filter fun f => !node f.1).map (fun f => .field f.1) ++ (cachesOf c).map .cache

/-- `iterate_clz` (dataclass.py:421-424): data and meta. -/
def flatten (c : List (Level V)) (node : Nat → Bool) (o : Obj V H) : List (Option V) × List (Option V) :=
  ((dataFields c node).map o.get, (metaFields c node).map o.get)

/-- `clz_from_iterable` (dataclass.py:426-430). -/
def unflatten (c : List (Level V)) (node : Nat → Bool) (dataVals metaVals : List (Option V)) : Except Err (Obj V H) :=
  construct c true { kw := (metaFields c node).zip metaVals ++ (dataFields c node).zip dataVals }

/-- the method `__p` found on the class (dataclass.py:180-181), with the levels above it. -/
def method : List (Level V) → Nat → Option (Body V × List (Level V))
  | [], _ => none
  | l :: bases, p => match l.cached.find? fun e => decide (e.1 = p) with
    | some e => some (e.2, bases)
    | none => method bases p

/-- the accessor of the cached property `p` (dataclass.py:184-206) with a stack of `depth` frames. The accessor of every level calls `self.__p()`, the method of the most
    derived class; a RecursionError is a RuntimeError. -/
def read (c : List (Level V)) (p : Nat) : Nat → Obj V H → Except Err (V × Obj V H)
  | 0, _ => .error .runtimeError
  | depth + 1, o => match o.get (.cache p) with
    | some v => .ok (v, o)
    | none => match method c p with
      | none => .error .attributeError
      | some (.plain f, _) => .ok (f fun n => o.get (.field n), o.setCache p (f fun n => o.get (.field n)))
      | some (.withSuper g, bases) => match method bases p with
        | none => .error .attributeError
        | some _ => match read c p depth o with
          | .error e => .error e
          | .ok r => .ok (g (fun n => r.2.get (.field n)) r.1, r.2.setCache p (g (fun n => r.2.get (.field n)) r.1))

/-- reading the given cached properties one after the other (dataclass.py:236-239). -/
def readAll (c : List (Level V)) (depth : Nat) : List Nat → Obj V H → Except Err (Obj V H)
  | [], o => .ok o
  | p :: ps, o => match read c p depth o with
    | .error e => .error e
    | .ok r => readAll c depth ps r.2

/-- `_precompute_cached_properties` (dataclass.py:236-252). -/
def precompute (c : List (Level V)) (depth : Nat) (o : Obj V H) : Except Err (Obj V H) := readAll c depth (cachesOf c) o

/-- `hash(obj)` of a class with `cache_hash=True` (dataclass.py:317-340); `compute` is the hash of the fields. -/
def hash (compute : (Nat → Option V) → H) (o : Obj V H) : H × Obj V H :=
  match o.hash with
  | some h => (h, o)
  | none => (compute fun n => o.get (.field n), { o with hash := some (compute fun n => o.get (.field n)) })

/-! ### two classes of NetKet -/

/-- `HashableArray` (utils/array.py:21-42): one field (number 0), the wrapped array; `copy` makes a read-only copy. -/
def hashableArray (copy : V → V) : List (Level V) :=
  [{ fields := [(0, none)],
     pre := some fun _ a => match bind [(Name.field 0, none)] a with
      | .error e => .error e
      | .ok vals => match (lookup vals (.field 0)).join with
        | none => .error .attributeError
        | some v => .ok { pos := [some (copy v)] } }]

/-- `PGSymmetry` (utils/group/_point_group.py:37-70, 138-145): the field `_affine` (number 0) and the cached property `_name` (number 0); `__pre_init__` takes the
    arguments `W` and `w` (numbers 1 and 2) and makes the affine matrix of them. The base `Element` is not a dataclass. -/
def pgSymmetry (affine : Option V → Option V → Except Err V) (name : (Nat → Option V) → V) : List (Level V) :=
  [{ fields := [(0, none)],
     pre := some fun _ a => match bind [(Name.field 1, none), (Name.field 2, some none)] a with
      | .error e => .error e
      | .ok vals => match affine (lookup vals (.field 1)).join (lookup vals (.field 2)).join with
        | .error e => .error e
        | .ok m => .ok { pos := [some m] },
     cached := [(0, .plain name)] }]

end Verif.DataclassInit
