import Verif.Model.DiscreteHilbert
import Mathlib.Data.List.Dedup
import Mathlib.Data.List.Sort

/-! Model of netket/utils/group: semigroup elements, permutation groups, duplicates, product tables, conjugacy classes. -/

namespace Verif.Grp
open Verif.Hilbert (Err pyIndex)

/-! ## Elements of a semigroup (_semigroup.py) -/

/-- _semigroup.py:29-56, 79-90: `Identity`, elements of other classes (`atom`) and `Composite`. -/
inductive Elem (A : Type) where
  | id
  | atom (a : A)
  | comp (l r : Elem A)

section
variable {A X : Type}

/-- _semigroup.py:44-45, 59-61, 93-95: `elem(ket)`, the action of an element given the action of the atoms. -/
def Elem.act (f : A → X → Except Err X) : Elem A → X → Except Err X
  | .id, x => .ok x
  | .atom a, x => f a x
  | .comp l r, x =>
    match r.act f x with
    | .error e => .error e
    | .ok y => l.act f y

/-- _semigroup.py:64-76, 112-118: `Identity @ b`.  For a composite `b` the rules `(Identity, Element)` and
    `(Element, Composite)` both match and neither is more special: the dispatcher (plum 1.3) raises AmbiguousLookupError,
    written `runtimeError` here. -/
def idProd : Elem A → Except Err (Elem A)
  | .id => .ok .id
  | .atom b => .ok (.atom b)
  | .comp _ _ => .error .runtimeError

variable (pm : A → A → Option (Except Err A))

/-- _semigroup.py:98-100 with the rules of the subclasses (`pm`): the product of two atoms is that of their rule, and a `Composite`
    without one. -/
def atomAtom (a b : A) : Except Err (Elem A) :=
  match pm a b with
  | some (.ok c) => .ok (.atom c)
  | some (.error e) => .error e
  | none => .ok (.comp (.atom a) (.atom b))

/-- _semigroup.py:112-118: the end of the rule for `a @ (b@c)` once `ab = product(a, b)` is known. -/
def joinLeft (a l r : Elem A) : Except Err (Elem A) → Except Err (Elem A)
  | .error e => .error e
  | .ok (.comp _ _) => .ok (.comp a (.comp l r))
  | .ok ab => .ok (.comp ab r)

/-- _semigroup.py:74-76, 98-100, 112-118: `a @ b` for an atom `a`. -/
def atomProd (a : A) : Elem A → Except Err (Elem A)
  | .id => .ok (.atom a)
  | .atom b => atomAtom pm a b
  | .comp l r => joinLeft (.atom a) l r (atomProd a l)

/-- _semigroup.py:103-109: the end of the rule for `(a@b) @ c` once `bc = product(b, c)` is known. -/
def joinRight (l r c : Elem A) : Except Err (Elem A) → Except Err (Elem A)
  | .error e => .error e
  | .ok (.comp _ _) => .ok (.comp (.comp l r) c)
  | .ok bc => .ok (.comp l bc)

/-- _semigroup.py:121-127: the end of the rule for `(a@b) @ (c@d)` once `bc = product(b, c)` is known. -/
def joinBoth (l r l' r' : Elem A) : Except Err (Elem A) → Except Err (Elem A)
  | .error e => .error e
  | .ok (.comp _ _) => .ok (.comp (.comp l r) (.comp l' r'))
  | .ok bc => .ok (.comp l (.comp bc r'))

/-- _semigroup.py:59-127: `a @ b`.  `Composite @ Identity` is ambiguous as well. -/
def product : Elem A → Elem A → Except Err (Elem A)
  | .id, b => idProd b
  | .atom a, b => atomProd pm a b
  | .comp _ _, .id => .error .runtimeError
  | .comp l r, .atom c => joinRight l r (.atom c) (product r (.atom c))
  | .comp l r, .comp l' r' => joinBoth l r l' r' (product r l')

/-- the products of one row (_semigroup.py:174-178). -/
def productRow (a : Elem A) : List (Elem A) → Except Err (List (Elem A))
  | [] => .ok []
  | b :: bs =>
    match product pm a b with
    | .error e => .error e
    | .ok c =>
      match productRow a bs with
      | .error e => .error e
      | .ok cs => .ok (c :: cs)

/-- _semigroup.py:174-178, _permutation_group.py:196-204: `[a @ b for a, b in itertools.product(A, B)]`. -/
def productList : List (Elem A) → List (Elem A) → Except Err (List (Elem A))
  | [], _ => .ok []
  | a :: as, bs =>
    match productRow pm a bs with
    | .error e => .error e
    | .ok cs =>
      match productList as bs with
      | .error e => .error e
      | .ok ds => .ok (cs ++ ds)

end

/-! ## Permutations (_permutation_group.py) -/

/-- _permutation_group.py:70-72: `x[..., p]` on the last axis: every index may count from the end; out of range is an IndexError. -/
def gather {α : Type} (x : List α) : List Int → Except Err (List α)
  | [] => .ok []
  | i :: r =>
    match pyIndex x i with
    | .error e => .error e
    | .ok v =>
      match gather x r with
      | .error e => .error e
      | .ok vs => .ok (v :: vs)

/-- `np.arange(n)` (_permutation_group.py:101). -/
def arange (n : Nat) : List Int := (List.range n).map fun k : Nat => (k : Int)

/-- _permutation_group.py:70-72: action of a permutation. -/
def permAct {α : Type} (p : List Int) (x : List α) : Except Err (List α) := gather x p

/-- _permutation_group.py:75-78: `Permutation(p(np.asarray(q)))`, always a permutation. -/
def permProd (p q : List Int) : Option (Except Err (List Int)) := some (permAct p q)

/-- _permutation_group.py:100-101: canonical form of an element. -/
def canonical (n : Nat) (e : Elem (List Int)) : Except Err (List Int) := e.act permAct (arange n)

/-- _permutation_group.py:103-114, _group.py:61-65: `to_array`. -/
def toArray (n : Nat) : List (Elem (List Int)) → Except Err (List (List Int))
  | [] => .ok []
  | e :: es =>
    match canonical n e with
    | .error x => .error x
    | .ok r =>
      match toArray n es with
      | .error x => .error x
      | .ok rs => .ok (r :: rs)

/-- _group.py:67-74: `_canonical_lookup`, a dictionary: the last index with the key. -/
def lookup (rows : List (List Int)) (k : List Int) : Except Err Nat :=
  if k ∈ rows then .ok (rows.length - 1 - rows.reverse.idxOf k) else .error .keyError

/-- sorting, with the order as a Boolean function (the sorts of numpy in _group.py:91, 96, 167 and _permutation_group.py:149). -/
def sortBy {α : Type} (le : α → α → Bool) (l : List α) : List α := l.insertionSort fun a b => le a b = true

/-- `np.argsort(perm)` (_permutation_group.py:149). -/
def argsort (p : List Int) : List Int :=
  (sortBy (fun i j => decide (p.getD i 0 ≤ p.getD j 0)) (List.range p.length)).map fun k : Nat => (k : Int)

/-- looking up a list of keys, KeyError becoming RuntimeError (_permutation_group.py:146-157, 175-184). -/
def lookupAll (rows : List (List Int)) : List (List Int) → Except Err (List Nat)
  | [] => .ok []
  | k :: ks =>
    match lookup rows k with
    | .error _ => .error .runtimeError
    | .ok i =>
      match lookupAll rows ks with
      | .error e => .error e
      | .ok is => .ok (i :: is)

/-- _permutation_group.py:143-157: `inverse` of a group with array `rows`. -/
def inverse (rows : List (List Int)) : Except Err (List Nat) := lookupAll rows (rows.map argsort)

/-- `perms_t[inv_t]` (_permutation_group.py:163-171): entry `d` for `g`, `h` is `perms[h][inverse[g][d]]`. -/
def compose (p q : List Int) : List Int := p.map fun i => q.getD i.toNat 0

/-- the rows of the table, one for each `g` (_permutation_group.py:168-180). -/
def tableRows (rows : List (List Int)) : List Nat → Except Err (List (List Nat))
  | [] => .ok []
  | i :: is =>
    match lookupAll rows (rows.map fun q => compose (rows.getD i []) q) with
    | .error e => .error e
    | .ok r =>
      match tableRows rows is with
      | .error e => .error e
      | .ok rs => .ok (r :: rs)

/-- _permutation_group.py:159-184: `product_table`.  (The lookups are done row by row here and in the order of the flattened table
    there, with the same outcome: all of them succeed or a RuntimeError is raised.) -/
def productTable (rows : List (List Int)) : Except Err (List (List Nat)) :=
  match inverse rows with
  | .error e => .error e
  | .ok inv => tableRows rows inv

/-! ## Duplicates (_group.py:76-101) -/

/-- lexicographic comparison of rows, as used by `np.unique(axis=0)` (_group.py:91, 167). -/
def lexLe : List Int → List Int → Bool
  | [], _ => true
  | _ :: _, [] => false
  | x :: xs, y :: ys => decide (x < y) || (decide (x = y) && lexLe xs ys)

/-- `np.unique(rows, axis=0)`: the distinct rows in increasing order (_group.py:91, 167). -/
def uniqueRows (rows : List (List Int)) : List (List Int) := sortBy lexLe rows.dedup

/-- `return_index`: for each unique row its first occurrence (_group.py:93, 168). -/
def uniqueIndex (rows : List (List Int)) : List Nat := (uniqueRows rows).map fun r => rows.idxOf r

/-- `return_inverse`: for each row its position among the unique ones (_group.py:94, 168). -/
def uniqueInverse (rows : List (List Int)) : List Nat := rows.map fun r => (uniqueRows rows).idxOf r

/-- _group.py:76-101: `remove_duplicates(return_inverse=True)` for elements with canonical forms `rows`. -/
def removeDuplicates {E : Type} (elems : List E) (rows : List (List Int)) : List E × List Nat :=
  ((sortBy (fun i j => decide (i ≤ j)) (uniqueIndex rows)).filterMap fun i => elems[i]?, uniqueInverse rows)

/-! ## Conjugacy classes (_group.py:140-179) -/

/-- entry of a table of indices (netket/utils/group/_group.py:104-140). -/
def entry (T : List (List Nat)) (i j : Nat) : Nat := (T.getD i []).getD j 0

/-- _group.py:140-148: `conjugacy_table`: `product_table[product_table, col_index]`. -/
def conjugacyTable (T : List (List Nat)) : List (List Nat) :=
  (List.range T.length).map fun g => (List.range T.length).map fun h => entry T (entry T g h) h

/-- _group.py:161-165: `is_conjugate` as a 0/1 array. -/
def isConjugate (T : List (List Nat)) : List (List Int) :=
  (List.range T.length).map fun g => (List.range T.length).map fun k =>
    if ((conjugacyTable T).getD g []).contains k then 1 else 0

/-- _group.py:150-179: `conjugacy_classes`: classes, representatives, class of each element. -/
def conjugacyClasses (T : List (List Nat)) : List (List Int) × List Nat × List Nat :=
  let rows := isConjugate T
  ((uniqueRows rows).reverse, (uniqueIndex rows).reverse,
    (uniqueInverse rows).map fun k => (uniqueIndex rows).length - 1 - k)

end Verif.Grp
