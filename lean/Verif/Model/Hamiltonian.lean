import Verif.Model.LocalOperator
import Verif.Model.LocalOpHeap

/-! Model of netket/operator/_hamiltonian.py (`SpecialHamiltonian`, `Ising`, `BoseHubbard`) and
netket/operator/_graph_operator.py (`GraphOperator`, `Heisenberg`).

A graph enters through `graph.n_nodes` and the list `graph.edges()`; sites of edges are below the number of
sites of the Hilbert space (asserted equal to `n_nodes`). Exact arithmetic in a commutative ring `K`; the
preallocated output arrays are lists, entries are written at consecutive positions. `dtype` conversions and
`numba` typing are not modelled. -/

namespace Verif.Ham
open Verif.Hilbert Verif.LocalOp

/-! ### loops over terms of a `LocalOperator` -/

section
variable {K : Type} [CommRing K] [DecidableEq K] [Star K] {α : Type} [LinearOrder α] [Inhabited α] {N : Nat}

/-- `ha -= other` (_local_operator.py:368-372): `self.__iadd__(-other)`, `-other = -1 * other`. -/
def isub (cut : Cutoff K) (hi : Fin N → List α) (a b : LOp K α N) : Except Err (LOp K α N) :=
  match mulScalar cut hi b (-1) with
  | .error e => .error e
  | .ok nb => iadd cut hi a nb

/-- `for t in terms: ha += t` where building the term may fail
(netket/operator/_hamiltonian.py:224, 554-558). -/
def addTerms (cut : Cutoff K) (hi : Fin N → List α) :
    LOp K α N → List (Except Err (LOp K α N)) → Except Err (LOp K α N)
  | ha, [] => .ok ha
  | ha, t :: ts =>
    match t with
    | .error e => .error e
    | .ok o =>
      match iadd cut hi ha o with
      | .error e => .error e
      | .ok ha' => addTerms cut hi ha' ts

/-- `for t in terms: ha -= t` (netket/operator/_hamiltonian.py:220, 561). -/
def subTerms (cut : Cutoff K) (hi : Fin N → List α) :
    LOp K α N → List (Except Err (LOp K α N)) → Except Err (LOp K α N)
  | ha, [] => .ok ha
  | ha, t :: ts =>
    match t with
    | .error e => .error e
    | .ok o =>
      match isub cut hi ha o with
      | .error e => .error e
      | .ok ha' => subTerms cut hi ha' ts

/-- `z * op` when building `op` may fail (netket/operator/_hamiltonian.py:220-226, 554-566). -/
def scaled (cut : Cutoff K) (hi : Fin N → List α) (z : K) (t : Except Err (LOp K α N)) :
    Except Err (LOp K α N) :=
  match t with
  | .error e => .error e
  | .ok o => mulScalar cut hi o z

/-- `a * b` of two local operators (_local_operator.py:374-377, `__imatmul__` of a copy). -/
def times (cut : Cutoff K) (hi : Fin N → List α) (a b : Except Err (LOp K α N)) :
    Except Err (LOp K α N) :=
  match a with
  | .error e => .error e
  | .ok a =>
    match b with
    | .error e => .error e
    | .ok b => opMatmul cut hi a b

/-- `a + b` of two local operators (netket/operator/_local_operator.py:320-323). -/
def plus (cut : Cutoff K) (hi : Fin N → List α) (a b : Except Err (LOp K α N)) :
    Except Err (LOp K α N) :=
  match a with
  | .error e => .error e
  | .ok a =>
    match b with
    | .error e => .error e
    | .ok b => add cut hi a b

/-- `a - b` of two local operators (netket/operator/_local_operator.py:362-363). -/
def minus (cut : Cutoff K) (hi : Fin N → List α) (a b : Except Err (LOp K α N)) :
    Except Err (LOp K α N) :=
  match a with
  | .error e => .error e
  | .ok a =>
    match b with
    | .error e => .error e
    | .ok b => sub cut hi a b

/-- `op + c` with a number (netket/operator/_local_operator.py:320-360). -/
def plusConst (cut : Cutoff K) (hi : Fin N → List α) (a : Except Err (LOp K α N)) (c : K) :
    Except Err (LOp K α N) :=
  match a with
  | .error e => .error e
  | .ok a => addScalar cut hi a c

end

/-! ### Ising -/

/-- _hamiltonian.py:142-150: parameters and edges of an `Ising` object on `N` spins. -/
structure Ising (K : Type) (N : Nat) where
  h : K
  J : K
  edges : List (Fin N × Fin N)

/-- _hamiltonian.py:112-150: constructor; `nNodes = graph.n_nodes`. -/
def Ising.mk? {K : Type} {N : Nat} (nNodes : Nat) (edges : List (Fin N × Fin N)) (h J : K) :
    Except Err (Ising K N) :=
  if nNodes = N then .ok ⟨h, J, edges⟩ else .error .assertionError

section
variable {K : Type} [CommRing K] {N : Nat}

/-- _hamiltonian.py:268-287: `mels[diag_ind] += J * x_i * x_j` over the edges. -/
def Ising.diag (op : Ising K N) (x : Fin N → ℤ) : K :=
  op.edges.foldl (fun m e => m + op.J * (x e.1 : K) * (x e.2 : K)) 0

/-- _hamiltonian.py:266-303, one row: the diagonal entry, then one flip per site. -/
def Ising.row (op : Ising K N) (x : Fin N → ℤ) : List ((Fin N → ℤ) × K) :=
  (x, op.diag x) :: (List.finRange N).map fun j => (Function.update x j (x j * -1), -op.h)

/-- _hamiltonian.py:250-304 `_flattened_kernel`: all rows and `sections`. -/
def Ising.flattened (op : Ising K N) (xs : List (Fin N → ℤ)) : List ((Fin N → ℤ) × K) × List Nat :=
  xs.foldl (fun out x => (out.1 ++ op.row x, out.2 ++ [out.1.length + (N + 1)])) ([], [])

/-- _hamiltonian.py:183-203 `n_conn`. -/
def Ising.nConn (_op : Ising K N) (xs : List (Fin N → ℤ)) : List Nat := xs.map fun _ => N + 1

/-- _hamiltonian.py:205-208 `max_conn_size`. -/
def Ising.maxConn (_op : Ising K N) : Nat := N + 1

/-- graph/graph.py:52-57: number of nodes of `Graph(edges=...)` without `n_nodes`. -/
def nodesOfEdges (edges : List (Fin N × Fin N)) : Nat :=
  if edges.length > 0 then (edges.map fun e => max e.1.val e.2.val).foldl max 0 + 1 else 0

/-- _hamiltonian.py:210-212 `copy`: a new graph from the edges alone (the `dtype` is dropped, not
    modelled). -/
def Ising.copy (op : Ising K N) : Except Err (Ising K N) :=
  Ising.mk? (nodesOfEdges op.edges) op.edges op.h op.J

/-- _hamiltonian.py:230-237 `_iadd_same_hamiltonian` (equal Hilbert spaces). -/
def Ising.iadd (a b : Ising K N) : Ising K N := ⟨a.h + b.h, a.J + b.J, a.edges⟩

/-- _hamiltonian.py:239-246 `_isub_same_hamiltonian`. -/
def Ising.isub (a b : Ising K N) : Ising K N := ⟨a.h - b.h, a.J - b.J, a.edges⟩

/-- _hamiltonian.py:41-47 `__add__` of two `Ising`. -/
def Ising.add (a b : Ising K N) : Except Err (Ising K N) :=
  match a.copy with
  | .error e => .error e
  | .ok r => .ok (r.iadd b)

/-- _hamiltonian.py:49-55 `__sub__` of two `Ising`. -/
def Ising.sub (a b : Ising K N) : Except Err (Ising K N) :=
  match a.copy with
  | .error e => .error e
  | .ok r => .ok (r.isub b)

/-- spin.py:21-40 `sigmax` for local dimension 2: `D = [sqrt(1.5*2 - 2)] = [1]`. -/
def sigmaX : Mat K := ⟨2, fun i j => if i + 1 = j ∨ j + 1 = i then 1 else 0⟩

/-- spin.py:67-86 `sigmaz` for local dimension 2: `diag(1, -1)`. -/
def sigmaZ : Mat K := ⟨2, fun i j => if i = j then (if i = 0 then 1 else -1) else 0⟩

/-- local states of `Spin(s=0.5)` (netket/hilbert/spin.py:89-95). -/
def halfSpins (N : Nat) : Fin N → List ℤ := fun _ => [-1, 1]

/-- _hamiltonian.py:218-220 and 222-226: the two loops of `to_local_operator`. -/
def Ising.toLocal [DecidableEq K] [Star K] (cut : Cutoff K) (op : Ising K N) :
    Except Err (LOp K ℤ N) :=
  let hi := halfSpins N
  let site := fun (m : Mat K) (i : Fin N) => LocalOp.mk cut hi 0 [(m, [i])]
  match LocalOp.mk cut hi 0 [] with
  | .error e => .error e
  | .ok ha =>
    match (if op.h ≠ 0 then
        subTerms cut hi ha ((List.finRange N).map fun i => scaled cut hi op.h (site sigmaX i))
      else .ok ha) with
    | .error e => .error e
    | .ok ha =>
      if op.J ≠ 0 then
        addTerms cut hi ha (op.edges.map fun e =>
          scaled cut hi op.J (times cut hi (site sigmaZ e.1) (site sigmaZ e.2)))
      else .ok ha

end

/-! ### operators on both sides of `@`, `*`, `+`, `-` -/

/-- an operand: a `LocalOperator` or an `Ising` object (netket/operator/_hamiltonian.py:40-84). -/
inductive Operand (K : Type) (N : Nat)
  | loc (op : LOp K ℤ N)
  | ham (op : Ising K N)

section
variable {K : Type} [CommRing K] [DecidableEq K] [Star K] {N : Nat}

/-- `a @ b` and `a * b` for different objects: _abstract_operator.py:313-342,
    _local_operator.py:374-377, 427-435, 473-474, _hamiltonian.py:86-102. `LocalOperator @ Ising` returns
    `NotImplemented`, so Python calls `Ising.__rmatmul__` (`__rmul__`), which evaluates
    `to_local_operator().__matmul__(other)`. For `Ising @ Ising` the explicit call of
    `LocalOperator.__matmul__` returns `NotImplemented`; the reflected method of the same type is not
    tried: `TypeError`. -/
def Operand.matmul (cut : Cutoff K) : Operand K N → Operand K N → Except Err (LOp K ℤ N)
  | .loc a, .loc b => opMatmul cut (halfSpins N) a b
  | .ham h, .loc b =>
    match h.toLocal cut with
    | .error e => .error e
    | .ok a => opMatmul cut (halfSpins N) a b
  | .loc b, .ham h =>
    match h.toLocal cut with
    | .error e => .error e
    | .ok a => opMatmul cut (halfSpins N) a b
  | .ham _, .ham _ => .error .typeError

/-- `a + b`: _local_operator.py:320-348, _hamiltonian.py:41-47, 57-61. `LocalOperator + Ising` goes to
    `Ising.__radd__`. -/
def Operand.add (cut : Cutoff K) : Operand K N → Operand K N → Except Err (Operand K N)
  | .loc a, .loc b =>
    match LocalOp.add cut (halfSpins N) a b with
    | .error e => .error e
    | .ok r => .ok (.loc r)
  | .ham h, .loc b =>
    match h.toLocal cut with
    | .error e => .error e
    | .ok a => match LocalOp.add cut (halfSpins N) a b with
      | .error e => .error e
      | .ok r => .ok (.loc r)
  | .loc b, .ham h =>
    match h.toLocal cut with
    | .error e => .error e
    | .ok a => match LocalOp.add cut (halfSpins N) a b with
      | .error e => .error e
      | .ok r => .ok (.loc r)
  | .ham h, .ham h' =>
    match h.add h' with
    | .error e => .error e
    | .ok r => .ok (.ham r)

/-- `a - b`: _local_operator.py:362-363 evaluates `-other`, and no class in _hamiltonian.py or
    _abstract_operator.py defines `__neg__`: `TypeError`; _hamiltonian.py:49-55 otherwise. -/
def Operand.sub (cut : Cutoff K) : Operand K N → Operand K N → Except Err (Operand K N)
  | .loc a, .loc b =>
    match LocalOp.sub cut (halfSpins N) a b with
    | .error e => .error e
    | .ok r => .ok (.loc r)
  | .ham h, .loc b =>
    match h.toLocal cut with
    | .error e => .error e
    | .ok a => match LocalOp.sub cut (halfSpins N) a b with
      | .error e => .error e
      | .ok r => .ok (.loc r)
  | .loc _, .ham _ => .error .typeError
  | .ham h, .ham h' =>
    match h.sub h' with
    | .error e => .error e
    | .ok r => .ok (.ham r)

end

/-! ### BoseHubbard -/

/-- square roots of integers and the number `0.5`
(netket/operator/_hamiltonian.py:633, 641, 653; boson.py:43, 67). -/
structure Roots (K : Type) where
  sq : Nat → K
  half : K

/-- _hamiltonian.py:483-501: parameters of a `BoseHubbard` object. -/
structure Bose (K : Type) (N : Nat) where
  U : K
  V : K
  J : K
  mu : K
  nMax : Nat
  edges : List (Fin N × Fin N)

section
variable {K : Type} [CommRing K] {N : Nat}

/-- _hamiltonian.py:705-706, 713-714: `x_prime[., i] -= 1; x_prime[., j] += 1` on a copy of `x`. -/
def hopTo (x : Fin N → ℕ) (i j : Fin N) : Fin N → ℕ :=
  let y := Function.update x i (x i - 1)
  Function.update y j (y j + 1)

/-- _hamiltonian.py:701-715: the up to two entries of an edge. -/
def Bose.edgeEntries (R : Roots K) (op : Bose K N) (x : Fin N → ℕ) (e : Fin N × Fin N) :
    List ((Fin N → ℕ) × K) :=
  (if x e.1 > 0 ∧ x e.2 < op.nMax then
      [(hopTo x e.1 e.2, -op.J * R.sq (x e.1) * R.sq (x e.2 + 1))] else [])
  ++ (if x e.2 > 0 ∧ x e.1 < op.nMax then
      [(hopTo x e.2 e.1, -op.J * R.sq (x e.2) * R.sq (x e.1 + 1))] else [])

/-- _hamiltonian.py:688-698: the diagonal entry accumulated in the order of the kernel. -/
def Bose.diag (R : Roots K) (op : Bose K N) (x : Fin N → ℕ) : K :=
  op.edges.foldl (fun m e => m + op.V * (x e.1 : K) * (x e.2 : K))
    ((List.finRange N).foldl
      (fun m i => m - op.mu * (x i : K) + R.half * op.U * (x i : K) * ((x i : K) - 1)) 0)

/-- _hamiltonian.py:684-715, one row of the kernel. -/
def Bose.row (R : Roots K) (op : Bose K N) (x : Fin N → ℕ) : List ((Fin N → ℕ) × K) :=
  (x, op.diag R x) :: op.edges.flatMap (op.edgeEntries R x)

/-- _hamiltonian.py:596-655 `get_conn`, which accumulates the diagonal in another order. -/
def Bose.getConn (R : Roots K) (op : Bose K N) (x : Fin N → ℕ) : List ((Fin N → ℕ) × K) :=
  (x, (List.finRange N).foldl
      (fun m i => m - op.mu * (x i : K) + R.half * op.U * (x i : K) * ((x i : K) - 1))
      (op.edges.foldl (fun m e => m + op.V * (x e.1 : K) * (x e.2 : K)) 0))
    :: op.edges.flatMap (op.edgeEntries R x)

/-- _hamiltonian.py:590-594 and 498 `max_conn_size`. -/
def Bose.maxConn (op : Bose K N) : Nat := 1 + 2 * op.edges.length

/-- _hamiltonian.py:659-735 with `pad = False`: rows and `sections`. -/
def Bose.flattened (R : Roots K) (op : Bose K N) (xs : List (Fin N → ℕ)) :
    List ((Fin N → ℕ) × K) × List Nat :=
  xs.foldl (fun out x =>
    let r := out.1 ++ op.row R x
    (r, out.2 ++ [r.length])) ([], [])

/-- _hamiltonian.py:659-735 with `pad = True`: buffers are filled with zeros first (673-675), every row
    starts at a multiple of `max_conn` (717-718). -/
def Bose.flattenedPad (R : Roots K) (op : Bose K N) (xs : List (Fin N → ℕ)) :
    List ((Fin N → ℕ) × K) × List Nat :=
  xs.foldl (fun out x =>
    let r := out.1 ++ op.row R x
      ++ List.replicate (op.maxConn - (op.row R x).length) (fun _ => 0, 0)
    (r, out.2 ++ [r.length])) ([], [])

/-- boson.py:21-46 `destroy`: `diag(sqrt(1..), 1)`; `d` the local dimension. -/
def destroyM (R : Roots K) (d : Nat) : Mat K := ⟨d, fun i j => if i + 1 = j then R.sq j else 0⟩

/-- boson.py:49-71 `create`: `diag(sqrt(1..), -1)`. -/
def createM (R : Roots K) (d : Nat) : Mat K := ⟨d, fun i j => if j + 1 = i then R.sq i else 0⟩

/-- boson.py:74-98 `number`. -/
def numberM (d : Nat) : Mat K := ⟨d, fun i j => if i = j then (i : K) else 0⟩

/-- local states of `Fock(n_max)` (netket/hilbert/fock.py:92). -/
def fock (N nMax : Nat) : Fin N → List ℕ := fun _ => List.range (nMax + 1)

/-- _hamiltonian.py:551-554: the on-site term `U * n_i * (n_i - 1) - mu * n_i`. -/
def Bose.siteTerm [DecidableEq K] [Star K] (cut : Cutoff K) (op : Bose K N) (i : Fin N) :
    Except Err (LOp K ℕ N) :=
  let hi := fock N op.nMax
  let n := LocalOp.mk cut hi 0 [(numberM (op.nMax + 1), [i])]
  minus cut hi (times cut hi (scaled cut hi op.U n) (plusConst cut hi n (-1))) (scaled cut hi op.mu n)

/-- _hamiltonian.py:558-564: the two terms of an edge, `V * (n_i n_j)` and `J * (a_i a†_j + a†_i a_j)`. -/
def Bose.bondTerms [DecidableEq K] [Star K] (R : Roots K) (cut : Cutoff K) (op : Bose K N)
    (e : Fin N × Fin N) : Except Err (LOp K ℕ N) × Except Err (LOp K ℕ N) :=
  let hi := fock N op.nMax
  let site := fun (m : Mat K) (i : Fin N) => LocalOp.mk cut hi 0 [(m, [i])]
  let d := op.nMax + 1
  (scaled cut hi op.V (times cut hi (site (numberM d) e.1) (site (numberM d) e.2)),
   scaled cut hi op.J (plus cut hi
     (times cut hi (site (destroyM R d) e.1) (site (createM R d) e.2))
     (times cut hi (site (createM R d) e.1) (site (destroyM R d) e.2))))

/-- _hamiltonian.py:557-564: the loop over the edges, `ha += ...; ha -= ...`. -/
def Bose.bondLoop [DecidableEq K] [Star K] (R : Roots K) (cut : Cutoff K) (op : Bose K N) :
    LOp K ℕ N → List (Fin N × Fin N) → Except Err (LOp K ℕ N)
  | ha, [] => .ok ha
  | ha, e :: es =>
    match addTerms cut (fock N op.nMax) ha [(op.bondTerms R cut e).1] with
    | .error e => .error e
    | .ok ha =>
      match subTerms cut (fock N op.nMax) ha [(op.bondTerms R cut e).2] with
      | .error e => .error e
      | .ok ha => op.bondLoop R cut ha es

/-- _hamiltonian.py:547-566 `to_local_operator`. -/
def Bose.toLocal [DecidableEq K] [Star K] (R : Roots K) (cut : Cutoff K) (op : Bose K N) :
    Except Err (LOp K ℕ N) :=
  match LocalOp.mk cut (fock N op.nMax) 0 [] with
  | .error e => .error e
  | .ok ha =>
    match (if op.U ≠ 0 ∨ op.mu ≠ 0 then
        addTerms cut (fock N op.nMax) ha ((List.finRange N).map (op.siteTerm cut))
      else .ok ha) with
    | .error e => .error e
    | .ok ha => if op.J ≠ 0 then op.bondLoop R cut ha op.edges else .ok ha

end

/-! ### GraphOperator -/

/-- _graph_operator.py:95-123: the lists passed to the constructor of `LocalOperator`; `edges` carry their
    colour, `M` is the type of matrices. -/
def graphTerms {M : Type} (N nNodes : Nat) (edges : List ((Fin N × Fin N) × ℤ)) (siteOps bondOps : List M)
    (colors : List ℤ) : Except Err (List (M × List (Fin N))) :=
  if nNodes ≠ N then .error .valueError
  else if bondOps.length = 0 ∧ siteOps.length = 0 then .error .valueError
  else
    let sites := if siteOps.length > 0 then
        (List.finRange N).flatMap fun i => siteOps.map fun m => (m, [i]) else []
    if colors.length > 0 then
      if bondOps.length ≠ colors.length then .error .valueError
      else .ok (sites ++ if bondOps.length > 0 then
        edges.flatMap fun e => (bondOps.zip colors).filterMap fun p =>
          if p.2 = e.2 then some (p.1, [e.1.1, e.1.2]) else none
        else [])
    else
      match bondOps with
      | [b] => .ok (sites ++ edges.map fun e => (b, [e.1.1, e.1.2]))
      | _ => .error .assertionError

/-- _graph_operator.py:29-123: constructor (arrays as values; sharing of the user's arrays between sites
    is treated with `LocalOp.hMk`). -/
def graphOperator {K : Type} [CommRing K] [DecidableEq K] [Star K] {α : Type} [LinearOrder α] [Inhabited α]
    {N : Nat} (cut : Cutoff K) (hi : Fin N → List α) (nNodes : Nat) (edges : List ((Fin N × Fin N) × ℤ))
    (siteOps bondOps : List (Mat K)) (colors : List ℤ) : Except Err (LOp K α N) :=
  match graphTerms N nNodes edges siteOps bondOps colors with
  | .error e => .error e
  | .ok terms => LocalOp.mk cut hi 0 terms

/-- _graph_operator.py:29-123 with the matrices given as numpy arrays, by reference (`refs` of the user's
    arrays); `dt` the dtype. -/
def hGraphOperator {K : Type} [CommRing K] [DecidableEq K] [Star K] {α : Type} [LinearOrder α] [Inhabited α]
    {N : Nat} (cut : Cutoff K) (hi : Fin N → List α) (H : Heap K) (dt : Nat) (nNodes : Nat)
    (edges : List ((Fin N × Fin N) × ℤ)) (siteOps bondOps : List Nat) (colors : List ℤ) :
    Except Err (Heap K × HOp K α N) :=
  match graphTerms N nNodes edges siteOps bondOps colors with
  | .error e => .error e
  | .ok terms => hMk cut hi H dt 0 terms

/-- _hamiltonian.py:395-411: `sz_sz` and `exchange` of `Heisenberg`. -/
def szsz {K : Type} [CommRing K] : Mat K :=
  ⟨4, fun i j => if i = j then (if i = 0 ∨ i = 3 then 1 else -1) else 0⟩

/-- _hamiltonian.py:403-410 `exchange`. -/
def exchange {K : Type} [CommRing K] : Mat K :=
  ⟨4, fun i j => if (i = 1 ∧ j = 2) ∨ (i = 2 ∧ j = 1) then 2 else 0⟩

/-- _hamiltonian.py:362-426 `Heisenberg`; `bip = graph.is_bipartite()`, `signRule` the optional
    argument. -/
def heisenberg {K : Type} [CommRing K] [DecidableEq K] [Star K] {N : Nat} (cut : Cutoff K)
    (nNodes : Nat) (edges : List ((Fin N × Fin N) × ℤ)) (bip : Bool) (J : K) (signRule : Option Bool) :
    Except Err (LOp K ℤ N) :=
  if signRule.getD bip then
    if !bip then .error .valueError
    else graphOperator cut (halfSpins N) nNodes edges []
      [⟨4, fun i j => J * (szsz.f i j - exchange.f i j)⟩] []
  else graphOperator cut (halfSpins N) nNodes edges []
      [⟨4, fun i j => J * (szsz.f i j + exchange.f i j)⟩] []

/-! ### dtype of the constructor of `LocalOperator` -/

/-- some numpy dtypes (netket/operator/_local_operator.py:50-58). -/
inductive NpType | bool | int64 | float32 | float64 | complex64 | complex128
  deriving DecidableEq

/-- kind of a dtype: `b`, `i`, `f`, `c`, in this order
(netket/operator/_local_operator.py:50-58, numpy.promote_types). -/
def NpType.kind : NpType → Nat
  | .bool => 0
  | .int64 => 1
  | .float32 => 2
  | .float64 => 2
  | .complex64 => 3
  | .complex128 => 3

/-- needs double precision (netket/operator/_local_operator.py:50-58, numpy.promote_types). -/
def NpType.double : NpType → Bool
  | .int64 => true
  | .float64 => true
  | .complex128 => true
  | _ => false

/-- dtype of given kind and precision
(netket/operator/_local_operator.py:50-58, numpy.promote_types). -/
def NpType.of (kind : Nat) (double : Bool) : NpType :=
  if kind = 0 then .bool
  else if kind = 1 then .int64
  else if kind = 2 then (if double then .float64 else .float32)
  else if double then .complex128 else .complex64

/-- `np.promote_types` on these dtypes (numpy, used at _local_operator.py:252-254). -/
def promote (a b : NpType) : NpType := .of (max a.kind b.kind) (a.double || b.double)

/-- `np.can_cast(a, b, casting="same_kind")` on these dtypes (_local_operator.py:510). -/
def canCast (a b : NpType) : Bool := decide (a.kind ≤ b.kind)

/-- _local_operator.py:250-256: the dtype; the result of `np.promote_types` in the loop (253-254) is
    discarded. `none` when `operators` is empty is the `IndexError` of `operators[0]`. -/
def ctorDtype (dtype : Option NpType) (ops : List NpType) : Except Err NpType :=
  match dtype with
  | some d => .ok d
  | none =>
    match ops with
    | [] => .error .indexError
    | o :: _ => .ok (promote o .float32)

/-- _local_operator.py:250-269 and 510-511: dtype of the new operator, or the error of `can_cast`; an
    operator is the dtype of its matrix and whether it acts on some site. -/
def ctorDtypes (dtype : Option NpType) (ops : List (NpType × Bool)) : Except Err NpType :=
  match ctorDtype dtype (ops.map Prod.fst) with
  | .error e => .error e
  | .ok d => if ops.all fun p => !p.2 || canCast p.1 d then .ok d else .error .valueError

end Verif.Ham
