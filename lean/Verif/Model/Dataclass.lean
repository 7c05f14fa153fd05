import Verif.Model.DiscreteHilbert

/-!
NetKet dataclasses: netket/utils/struct/dataclass.py:132-254, 340-469.

Names of fields and properties are natural numbers. Objects are functions from names to values; a class
fixes which fields are pytree nodes (`dataFields`), which are serialised, and the functions that compute
the cached properties from the fields.
-/

namespace Verif.Dataclass

open Verif.Hilbert (Err)

/-- a dataclass (netket/utils/struct/dataclass.py:340-399). -/
structure Cls (V : Type) where
  /-- fields with `pytree_node=True` -/
  dataFields : List Nat
  /-- fields with `serialize=False` (skip_serialize_fields) -/
  skip : Nat → Bool
  /-- body of the cached property `p` -/
  compute : Nat → (Nat → V) → V

/-- an instance: values of the fields and caches, `none` is `Uninitialized`
(netket/utils/struct/dataclass.py:74-86, 218-232). -/
structure Obj (V : Type) where
  /-- fields -/
  fields : Nat → V
  /-- caches of the properties -/
  cache : Nat → Option V

variable {V : Type}

/-- access to the cached property `p` (netket/utils/struct/dataclass.py:187-195). -/
def read (c : Cls V) (o : Obj V) (p : Nat) : V × Obj V :=
  match o.cache p with
  | some v => (v, o)
  | none =>
    let v := c.compute p o.fields
    (v, { o with cache := fun q => if q = p then some v else o.cache q })

/-- `obj.replace(**updates)` (netket/utils/struct/dataclass.py:411-417): all caches are reset. -/
def replace (o : Obj V) (updates : List (Nat × V)) : Obj V :=
  { fields := fun n => match updates.find? fun u => u.1 == n with
      | some u => u.2
      | none => o.fields n
    cache := fun _ => none }

/-- `jax.tree_map(f, obj)`: flattening and unflattening as registered
(netket/utils/struct/dataclass.py:421-432); caches are meta fields and are copied. -/
def treeMap (c : Cls V) (o : Obj V) (f : V → V) : Obj V :=
  { fields := fun n => if n ∈ c.dataFields then f (o.fields n) else o.fields n
    cache := o.cache }

/-- `to_state_dict` (netket/utils/struct/dataclass.py:441-447). -/
def toStateDict (c : Cls V) (o : Obj V) : List (Nat × V) :=
  (c.dataFields.filter fun n => !c.skip n).map fun n => (n, o.fields n)

/-- the loop of `from_state_dict` over the fields (netket/utils/struct/dataclass.py:453-462). -/
def restoreLoop : List Nat → List (Nat × V) → List (Nat × V) → Except Err (List (Nat × V) × List (Nat × V))
  | [], state, updates => .ok (updates, state)
  | n :: ns, state, updates =>
    match state.find? fun u => u.1 == n with
    | none => .error .valueError
    | some u => restoreLoop ns (state.filter fun w => !(w.1 == n)) (updates ++ [(n, u.2)])

/-- `from_state_dict(x, state)` (netket/utils/struct/dataclass.py:449-469). -/
def fromStateDict (c : Cls V) (o : Obj V) (state : List (Nat × V)) : Except Err (Obj V) :=
  match restoreLoop (c.dataFields.filter fun n => !c.skip n) state [] with
  | .error e => .error e
  | .ok (updates, rest) =>
    if rest.isEmpty then .ok (replace o updates) else .error .valueError

/-- operations on an instance (netket/utils/struct/dataclass.py:187-195, 411-417). -/
inductive Op (V : Type) where
  /-- read a cached property -/
  | read (p : Nat)
  /-- replace fields and continue with the new object -/
  | replace (updates : List (Nat × V))

/-- effect of an operation (netket/utils/struct/dataclass.py:187-195, 411-417). -/
def apply (c : Cls V) (o : Obj V) : Op V → Obj V
  | .read p => (read c o p).2
  | .replace u => replace o u

end Verif.Dataclass
