import Verif.Model.DiscreteHilbert

/-! Model of `netket/utils/history.py`.

Python values that can be one row of a column are elements of an arbitrary type `V`; what numpy does
with them (kind of a value, dtype and row shape of an array, conversion on assignment, promotion) is
a record `Numpy D V`, where `D` is "dtype and row shape" of an array.  The `dtype`/`iter_dtype`
arguments of the constructor are left at their default `None`; `iters` is a scalar, a list or a numpy
array.  `append` returns the object after the call together with the exception, if any, because the
code mutates the object before it raises. -/

namespace Verif.Hist
open Verif.Hilbert (Err)

/-- the classes of values told apart by history.py:102-146 (`is_scalar`, `__array__`, `list`, the rest);
    an array of at least one axis is seen as the list of its rows. -/
inductive View (D V : Type)
  | scalar (d : D)
  | array (d : D) (rows : List V)
  | list (xs : List V)
  | other

/-- the numpy operations used by history.py: kind of a value, `np.array(list)` (96-98, 283),
    `a[-1] = v` (307, 316), `np.reshape(a, (1,) + a.shape)` (139), common dtype of
    `np.concatenate` (283, 285), the contents of a row added by `resize` (302), and the python
    constants `0` (with the dtype of `np.array([0])`), `None` and `[]`. -/
structure Numpy (D V : Type) where
  view : V → View D V
  ofList : List V → Except Err (D × List V)
  store : D → V → Except Err V
  wrap : D → List V → D × V
  promote : D → D → Except Err D
  zero : D → V
  int0 : D × V
  pyNone : V
  emptyList : V

/-- a column of `_value_dict`: a python list or a numpy array (history.py:126-148). -/
inductive Col (D V : Type)
  | list (xs : List V)
  | arr (d : D) (xs : List V)

variable {D V : Type}

/-- contents of a column (netket/utils/history.py:158-163, 213-217). -/
def Col.rows : Col D V → List V
  | .list xs => xs
  | .arr _ xs => xs

/-- history.py:36-155: the attributes of a `History`. -/
structure History (D V : Type) where
  valueDict : List (String × Col D V)
  valueName : Option String
  len : Nat
  single : Bool
  keys : List String

/-- argument `iters` of the constructor (history.py:56). -/
inductive Iters (D V : Type)
  | none
  | scalar (d : D) (v : V)
  | list (xs : List V)
  | array (d : D) (xs : List V)

/-- a field value given to the constructor: a python value, or a column sliced out of another
    history (history.py:186). -/
inductive Fld (D V : Type)
  | py (v : V)
  | col (c : Col D V)

/-- argument `values` of the constructor and of `append` (history.py:55, 102-124, 270-329):
    `None`, a single value, an object with `to_compound`, one with `to_dict`, a dict. -/
inductive Arg (D V : Type)
  | none
  | val (v : V)
  | compound (main : String) (fields : List (String × Fld D V))
  | toDict (fields : List (String × Fld D V))
  | dict (fields : List (String × Fld D V))

/-- python dictionary lookup (netket/utils/history.py:168-178). -/
def dget {β : Type} (k : String) : List (String × β) → Option β
  | [] => Option.none
  | (k', b) :: r => if k' = k then some b else dget k r

/-- python dictionary assignment `d[k] = b` (netket/utils/history.py:275-329). -/
def dset {β : Type} (k : String) (b : β) : List (String × β) → List (String × β)
  | [] => [(k, b)]
  | (k', b') :: r => if k' = k then (k', b) :: r else (k', b') :: dset k b r

section
variable (np : Numpy D V)

/-- the value given to `History(...)` is `None` (history.py:89). -/
def Arg.isNone : Arg D V → Bool
  | .none => true
  | _ => false

/-- history.py:89-98: the time axis as an array. -/
def itersCol (noValues : Bool) : Iters D V → Except Err (D × List V)
  | .none => if noValues then np.ofList [] else .ok (np.int0.1, [np.int0.2])
  | .scalar d v => .ok (d, [v])
  | .list xs => np.ofList xs
  | .array d xs => .ok (d, xs)

/-- the kind of a field value in the loop history.py:128-149. -/
def Fld.view : Fld D V → View D V
  | .py v => np.view v
  | .col (.list xs) => .list xs
  | .col (.arr d xs) => .array d xs

/-- history.py:132-146: the column made of one field of the initial values. -/
def mkCol (n : Nat) (f : Fld D V) : Except Err (Col D V) :=
  match f, f.view np with
  | .py v, .scalar d => if 1 = n then .ok (.arr d [v]) else .error .valueError
  | .py v, .other => .ok (.list [v])
  | _, .array d xs =>
    if n = 1 ∧ xs.length ≠ 1 then .ok (.arr (np.wrap d xs).1 [(np.wrap d xs).2])
    else if xs.length = n then .ok (.arr d xs) else .error .valueError
  | _, .list xs => .ok (.list xs)
  | .col _, _ => .error .typeError

/-- history.py:126-149: the loop over the fields. -/
def mkCols (n : Nat) : List (String × Fld D V) → Except Err (List (String × Col D V))
  | [] => .ok []
  | (k, f) :: r =>
    if k = "iters" then .error .valueError
    else match mkCol np n f with
      | .error e => .error e
      | .ok c => match mkCols n r with
        | .error e => .error e
        | .ok cs => .ok ((k, c) :: cs)

/-- history.py:102-124 for a single value `v`: the dict `{"value": ...}`. -/
def valueField (v : V) : List (String × Fld D V) :=
  match np.view v with
  | .scalar _ => [("value", .py v)]
  | .array _ _ => [("value", .py v)]
  | .list _ => [("value", .col (.list [v]))]
  | .other => [("value", .col (.list [v]))]

/-- history.py:102-124: fields, name of the main value and `single_value`.  `None` without `iters`
    has become `[]` (90); `None` with `iters` is a value like any other. -/
def argFields (noIters : Bool) : Arg D V → List (String × Fld D V) × Option String × Bool
  | .none => (valueField np (if noIters then np.emptyList else np.pyNone), some "value", true)
  | .val v => (valueField np v, some "value", true)
  | .compound m fs => (fs, some m, false)
  | .toDict fs => (fs, Option.none, false)
  | .dict fs => (fs, Option.none, false)

/-- `iters is None` (history.py:89, 92). -/
def Iters.isNone : Iters D V → Bool
  | .none => true
  | _ => false

/-- history.py:53-155: `History(values, iters)`. -/
def mkHistory (a : Arg D V) (it : Iters D V) : Except Err (History D V) :=
  match itersCol np a.isNone it with
  | .error e => .error e
  | .ok (d, xs) =>
    match mkCols np xs.length (argFields np it.isNone a).1 with
    | .error e => .error e
    | .ok cs => .ok {
        valueDict := ("iters", .arr d xs) :: cs
        valueName := (argFields np it.isNone a).2.1
        len := xs.length
        single := (argFields np it.isNone a).2.2
        keys := cs.map Prod.fst }

/-- history.py:293-309: append one value to the column `key`.  The row added by `resize` stays in place
    when the assignment raises. -/
def appendField (vd : List (String × Col D V)) (k : String) (v : V) :
    List (String × Col D V) × Option Err :=
  match dget k vd with
  | Option.none => (vd, some .keyError)
  | some (.list xs) => (dset k (.list (xs ++ [v])) vd, Option.none)
  | some (.arr d xs) => match np.store d v with
    | .ok w => (dset k (.arr d (xs ++ [w])) vd, Option.none)
    | .error e => (dset k (.arr d (xs ++ [np.zero d])) vd, some e)

/-- history.py:292-309: the loop over the fields of the appended dict. -/
def appendFields (vd : List (String × Col D V)) :
    List (String × V) → List (String × Col D V) × Option Err
  | [] => (vd, Option.none)
  | (k, v) :: r => match appendField np vd k v with
    | (vd', Option.none) => appendFields vd' r
    | (vd', some e) => (vd', some e)

/-- history.py:311-316: one more entry on the time axis. -/
def appendIter (vd : List (String × Col D V)) (it : V) : List (String × Col D V) × Option Err :=
  match dget "iters" vd with
  | some (.arr _ _) => appendField np vd "iters" it
  | some (.list _) => (vd, some .attributeError)
  | Option.none => (vd, some .keyError)

/-- history.py:290-317: `append(self, values: dict, it)`. -/
def appendDict (h : History D V) (fs : List (String × V)) (it : V) : History D V × Option Err :=
  match appendFields np h.valueDict fs with
  | (vd, some e) => ({ h with valueDict := vd }, some e)
  | (vd, Option.none) => match appendIter np vd it with
    | (vd', some e) => ({ h with valueDict := vd' }, some e)
    | (vd', Option.none) => ({ h with valueDict := vd', len := h.len + 1 }, Option.none)

/-- values that can be passed to `append` (history.py:202, 290-329). -/
inductive Item (V : Type)
  | val (v : V)
  | compound (main : String) (fields : List (String × V))
  | toDict (fields : List (String × V))
  | dict (fields : List (String × V))

/-- the dict appended for an item (history.py:290, 320-329); `it=None` is `np.pyNone`. -/
def Item.fields : Item V → List (String × V)
  | .val v => [("value", v)]
  | .compound _ fs => fs
  | .toDict fs => fs
  | .dict fs => fs

/-- history.py:202-211, 269-271, 290-329: `h.append(item, it)` for anything but a `History`. -/
def append (h : History D V) (x : Item V) (it : Option V) : History D V × Option Err :=
  appendDict np h x.fields (it.getD np.pyNone)

/-- history.py:283: a column as an array. -/
def Col.toArr : Col D V → Except Err (D × List V)
  | .list xs => np.ofList xs
  | .arr d xs => .ok (d, xs)

/-- conversion of every row, as done by `np.concatenate` (history.py:283). -/
def convAll (d : D) : List V → Except Err (List V)
  | [] => .ok []
  | v :: r => match np.store d v with
    | .error e => .error e
    | .ok w => match convAll d r with
      | .error e => .error e
      | .ok ws => .ok (w :: ws)

/-- history.py:283, 285: `np.concatenate([a, b])`. -/
def concat (a b : Col D V) : Except Err (Col D V) :=
  match a.toArr np, b.toArr np with
  | .ok (d, xs), .ok (d', ys) => match np.promote d d' with
    | .error e => .error e
    | .ok D' => match convAll np D' (xs ++ ys) with
      | .error e => .error e
      | .ok zs => .ok (.arr D' zs)
  | .error e, _ => .error e
  | _, .error e => .error e

/-- history.py:282-285: concatenation of the columns `ks` in order. -/
def concatCols (vd vd' : List (String × Col D V)) :
    List String → List (String × Col D V) × Option Err
  | [] => (vd, Option.none)
  | k :: r => match dget k vd, dget k vd' with
    | some a, some b => match concat np a b with
      | .ok c => concatCols (dset k c vd) vd' r
      | .error e => (vd, some e)
    | _, _ => (vd, some .keyError)

/-- history.py:274-287: `append(self, val: History, it)`. -/
def appendHistory (h o : History D V) (it : Option V) : History D V × Option Err :=
  if ¬((∀ k ∈ h.keys, k ∈ o.keys) ∧ (∀ k ∈ o.keys, k ∈ h.keys)) then (h, some .valueError)
  else if it.isSome then (h, some .valueError)
  else match concatCols np h.valueDict o.valueDict (h.keys ++ ["iters"]) with
    | (vd, some e) => ({ h with valueDict := vd }, some e)
    | (vd, Option.none) => ({ h with valueDict := vd, len := h.len + o.len }, Option.none)

/-- one end of python's `slice.indices(n)`: negative positions count from the end, everything is
    clamped to `[lower, upper]`, `dflt` is used for `None` (history.py:186, 188). -/
def sliceEnd (lower upper dflt : Int) (n : Nat) : Option Int → Int
  | some i => if i < 0 then max (i + n) lower else min i upper
  | Option.none => dflt

/-- python `slice(start, stop, step).indices(n)` followed by `range`: the positions selected by a
    slice of a sequence of length `n` (history.py:186, 188). -/
def sliceIdx (start stop step : Option Int) (n : Nat) : Except Err (List Int) :=
  let st := step.getD 1
  if st = 0 then .error .valueError
  else if 0 < st then
    let a := sliceEnd 0 n 0 n start
    let b := sliceEnd 0 n n n stop
    .ok ((List.range ((b - a + st - 1) / st).toNat).map fun k : Nat => a + (k : Int) * st)
  else
    let a := sliceEnd (-1) (n - 1) (n - 1) n start
    let b := sliceEnd (-1) (n - 1) (-1) n stop
    .ok ((List.range ((a - b - st - 1) / (-st)).toNat).map fun k : Nat => a + (k : Int) * st)

/-- rows of a column at the given positions (history.py:186). -/
def pick (xs : List V) (idx : List Int) : List V := idx.filterMap fun i => xs[i.toNat]?

/-- history.py:186: a column sliced. -/
def Col.slice (idx : List Int) : Col D V → Col D V
  | .list xs => .list (pick xs idx)
  | .arr d xs => .arr d (pick xs idx)

/-- history.py:185-188 for a slice: all columns and the time axis sliced. -/
def sliceFields (vd : List (String × Col D V)) (idx : List Int) :
    List String → Except Err (List (String × Fld D V))
  | [] => .ok []
  | k :: r => match dget k vd with
    | Option.none => .error .keyError
    | some c => match sliceFields vd idx r with
      | .error e => .error e
      | .ok fs => .ok ((k, .col (c.slice idx)) :: fs)

/-- history.py:180-194: the result of `_get_slice` from the sliced fields and times. -/
def rebuild (h : History D V) (fs : List (String × Fld D V)) (it : Iters D V) :
    Except Err (History D V) :=
  match mkHistory np (.dict fs) it with
  | .error e => .error e
  | .ok g => .ok { g with single := h.single, valueName := h.valueName }

/-- history.py:174-176, 180-194: `h[start:stop:step]`. -/
def getSlice (h : History D V) (start stop step : Option Int) : Except Err (History D V) :=
  match dget "iters" h.valueDict with
  | some (.arr d xs) => match sliceIdx start stop step xs.length with
    | .error e => .error e
    | .ok idx => match sliceFields h.valueDict idx h.keys with
      | .error e => .error e
      | .ok fs => rebuild np h fs (.array d (pick xs idx))
  | _ => .error .keyError

/-- history.py:185-186 for an integer: the `i`-th row of every column. -/
def rowFields (vd : List (String × Col D V)) (i : Int) :
    List String → Except Err (List (String × Fld D V))
  | [] => .ok []
  | k :: r => match dget k vd with
    | Option.none => .error .keyError
    | some c => match Verif.Hilbert.pyIndex c.rows i with
      | .error e => .error e
      | .ok v => match rowFields vd i r with
        | .error e => .error e
        | .ok fs => .ok ((k, .py v) :: fs)

/-- history.py:171-172, 180-194: `h[i]` for an integer `i` that is not a key. -/
def getInt (h : History D V) (i : Int) : Except Err (History D V) :=
  match rowFields h.valueDict i h.keys with
  | .error e => .error e
  | .ok fs => match dget "iters" h.valueDict with
    | some (.arr d xs) => match Verif.Hilbert.pyIndex xs i with
      | .error e => .error e
      | .ok v => rebuild np h fs (.scalar d v)
    | _ => .error .keyError

/-- history.py:387-389: an item as first value of a history. -/
def Item.toArg : Item V → Arg D V
  | .val v => .val v
  | .compound m fs => .compound m (fs.map fun p => (p.1, Fld.py p.2))
  | .toDict fs => .toDict (fs.map fun p => (p.1, Fld.py p.2))
  | .dict fs => .dict (fs.map fun p => (p.1, Fld.py p.2))

/-- history.py:387-392: `accum_histories(accum, data, step=step)`; `d` is the dtype of the step. -/
def accumHistories (accum : Option (History D V)) (x : Item V) (d : D) (step : V) :
    Except Err (History D V) :=
  match accum with
  | Option.none => mkHistory np x.toArg (.scalar d step)
  | some h => match append np h x (some step) with
    | (h', Option.none) => .ok h'
    | (_, some e) => .error e

end

/-- nested data given to loggers (history.py:350-384). -/
inductive Tree (L : Type)
  | none
  | leaf (x : L)
  | list (ts : List (Tree L))
  | tuple (ts : List (Tree L))
  | dict (kvs : List (String × Tree L))

/-- the accumulators paired with the entries of a list or tuple (history.py:354-355, 362-363). -/
def accList {H : Type} (n : Nat) : Tree H → Except Err (List (Tree H))
  | .none => .ok (List.replicate n .none)
  | .list as => .ok as
  | .tuple as => .ok as
  | _ => .error .typeError

/-- the accumulator of a dict (history.py:370-371). -/
def accDict {H : Type} : Tree H → Except Err (List (String × Tree H))
  | .none => .ok []
  | .dict kvs => .ok kvs
  | _ => .error .typeError

/-- the accumulator of a leaf; an accumulator of another shape makes the code raise
(netket/utils/history.py:332-384). -/
def accLeaf {H : Type} : Tree H → Except Err (Option H)
  | .none => .ok Option.none
  | .leaf h => .ok (some h)
  | _ => .error .typeError

mutual
/-- history.py:332-384: `accum_in_tree(fun, tree_accum, tree)`.  Leaves are everything that reaches
    the calls of `fun` (380, 384).  Objects with only `to_dict` are the dict they convert to (382).
    Accumulators whose shape does not fit are simplified to a TypeError. -/
def accumTree {H L : Type} (f : Option H → L → Except Err H) (acc : Tree H) :
    Tree L → Except Err (Tree H)
  | .none => .ok acc
  | .leaf x => match accLeaf acc with
    | .error e => .error e
    | .ok o => match f o x with
      | .error e => .error e
      | .ok h => .ok (.leaf h)
  | .list ts => match accList ts.length acc with
    | .error e => .error e
    | .ok as => match accumZip f as ts with
      | .error e => .error e
      | .ok r => .ok (.list r)
  | .tuple ts => match accList ts.length acc with
    | .error e => .error e
    | .ok as => match accumZip f as ts with
      | .error e => .error e
      | .ok r => .ok (.tuple r)
  | .dict kvs => match accDict acc with
    | .error e => .error e
    | .ok a => match accumDict f a kvs with
      | .error e => .error e
      | .ok r => .ok (.dict r)

/-- history.py:357-360, 365-368: `zip` of accumulators and entries (stops at the shorter one). -/
def accumZip {H L : Type} (f : Option H → L → Except Err H) (as : List (Tree H)) :
    List (Tree L) → Except Err (List (Tree H))
  | [] => .ok []
  | t :: ts => match as with
    | [] => .ok []
    | a :: as => match accumTree f a t with
      | .error e => .error e
      | .ok b => match accumZip f as ts with
        | .error e => .error e
        | .ok bs => .ok (b :: bs)

/-- history.py:373-378: the loop over the keys of a dict. -/
def accumDict {H L : Type} (f : Option H → L → Except Err H) (a : List (String × Tree H)) :
    List (String × Tree L) → Except Err (List (String × Tree H))
  | [] => .ok a
  | (k, t) :: r => match accumTree f ((dget k a).getD .none) t with
    | .error e => .error e
    | .ok b => accumDict f (dset k b a) r
end

/-- history.py:395 and runtime_log.py:33-35: `self._data = accum_histories_in_tree(data, item, step)`
    for every logged item in turn. -/
def runtimeLog (np : Numpy D V) (acc : Tree (History D V)) :
    List (D × V × Tree (Item V)) → Except Err (Tree (History D V))
  | [] => .ok acc
  | (d, step, x) :: r =>
    match accumTree (fun o i => accumHistories np o i d step) acc x with
    | .error e => .error e
    | .ok acc' => runtimeLog np acc' r

end Verif.Hist
