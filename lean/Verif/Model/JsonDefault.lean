import Verif.Model.Logging

/-! Model of the function `default` of `netket/logging/json_log.py` and of `orjson.dumps(data, default=default)`,
the call made by `JsonLog._flush_log`.

The result is the JSON value, not its text.  Arrays of dtype object, integers as keys of dictionaries, and the
difference between the limits of orjson for nested containers and for repeated calls of `default` are left out
(there is one limit, an argument). -/

namespace Verif.Log
open Verif.Hilbert (Err)

/-- json_log.py:46,51: a floating-point number: a rational number, or one of the three which are none. -/
inductive Flt
  | fin (q : Rat)
  | nan
  | inf
  | ninf
  deriving DecidableEq

/-- json_log.py:40-45: an entry of an array which is not complex, as `item` and `tolist` return it. -/
inductive Num
  | bool (b : Bool)
  | int (i : Int)
  | flt (x : Flt)
  deriving DecidableEq

/-- json_log.py:36-47: arrays: shape and entries, row by row. -/
inductive Arr
  | real (shape : List Nat) (xs : List Num)
  | cplx (shape : List Nat) (zs : List (Flt × Flt))
  deriving DecidableEq

/-- json_log.py:31-54: objects as the function `default` and `orjson.dumps` (178) distinguish them.  `history` is a
    `History`, or any object with `to_dict` and without `to_json`; `legacy` an object with `to_json`; `device` an
    array of jax; `scalar` a scalar of numpy such as `np.float32(1)` and `np.int64(1)`; `other` anything else. -/
inductive Obj
  | none
  | bool (b : Bool)
  | int (i : Int)
  | flt (x : Flt)
  | str (s : String)
  | list (xs : List Obj)
  | dict (kvs : List (String × Obj))
  | cplx (re im : Flt)
  | arr (a : Arr)
  | device (a : Arr)
  | scalar (x : Num)
  | history (cols : List (String × Obj))
  | legacy (o : Obj)
  | other

/-- json_log.py:178: JSON values. -/
inductive J
  | null
  | bool (b : Bool)
  | int (i : Int)
  | flt (q : Rat)
  | str (s : String)
  | arr (xs : List J)
  | obj (kvs : List (String × J))

/-- json_log.py:42,44: an entry as a python object. -/
def Num.toObj : Num → Obj
  | .bool b => .bool b
  | .int i => .int i
  | .flt x => .flt x

/-- json_log.py:31-54: `default(obj)`: what is serialised in the place of `obj`. -/
def default : Obj → Except Err Obj
  | .legacy o => .ok o
  | .history cols => .ok (.dict cols)
  | .arr (.cplx sh zs) =>
    .ok (.dict [("real", .arr (.real sh (zs.map fun z => .flt z.1))),
                ("imag", .arr (.real sh (zs.map fun z => .flt z.2)))])
  | .arr (.real [] xs) => match xs with
    | x :: _ => .ok x.toObj
    | [] => .error .valueError
  | .arr (.real [_] xs) => .ok (.list (xs.map Num.toObj))
  | .arr (.real (_ :: _ :: _) _) => .error .typeError
  | .device a => .ok (.arr a)
  | .cplx re im => .ok (.dict [("real", .flt re), ("imag", .flt im)])
  | _ => .error .typeError

/-- json_log.py:178: the elements of a list, up to the first exception. -/
def dumpList (f : Obj → Except Err J) : List Obj → Except Err (List J)
  | [] => .ok []
  | x :: r => match f x with
    | .error e => .error e
    | .ok j => match dumpList f r with
      | .error e => .error e
      | .ok js => .ok (j :: js)

/-- json_log.py:178: the items of a dictionary, up to the first exception. -/
def dumpDict (f : Obj → Except Err J) : List (String × Obj) → Except Err (List (String × J))
  | [] => .ok []
  | (k, x) :: r => match f x with
    | .error e => .error e
    | .ok j => match dumpDict f r with
      | .error e => .error e
      | .ok js => .ok ((k, j) :: js)

/-- json_log.py:178: `orjson.dumps(obj, default=default)` with at most `limit` nested levels.  NaN and infinities
    become null, integers must fit into 64 bits; everything orjson does not know is given to `default`. -/
def dumps : Nat → Obj → Except Err J
  | 0, _ => .error .typeError
  | n + 1, o => match o with
    | .none => .ok .null
    | .bool b => .ok (.bool b)
    | .int i => if -9223372036854775808 ≤ i ∧ i < 18446744073709551616 then .ok (.int i) else .error .typeError
    | .flt (.fin q) => .ok (.flt q)
    | .flt _ => .ok .null
    | .str s => .ok (.str s)
    | .list xs => (dumpList (dumps n) xs).map J.arr
    | .dict kvs => (dumpDict (dumps n) kvs).map J.obj
    | o => match default o with
      | .error e => .error e
      | .ok o' => dumps n o'

end Verif.Log
