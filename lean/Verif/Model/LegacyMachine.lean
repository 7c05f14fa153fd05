import Verif.Model.DiscreteHilbert
import Mathlib.Analysis.SpecialFunctions.Trigonometric.Deriv
import Mathlib.Analysis.SpecialFunctions.Complex.Log
import Mathlib.Algebra.BigOperators.Group.Finset.Basic
import Mathlib.Data.Rat.Floor

/-! The wave functions of `netket/legacy/machine`: `rbm.py`, `jastrow.py`, `abstract_machine.py` and `density_matrix`.

Flat arrays are lists of complex numbers; entry `k` is `ent l k`.  Configurations are functions of the site. Simplified: one
configuration at a time (the batch axis is a map) except where the code mixes batch and site axes; `float64` is the real numbers inside ℂ;
graphs given as `automorphisms` are their tables.  Not modelled: the machines of jax, flax and torch. -/

namespace Verif.LegacyMachine
open Verif.Hilbert (Err)
open Finset

/-- entry `k` of a flat array
(netket/legacy/machine/rbm.py: indexing of the flat arrays; abstract_machine.py:189-213). -/
def ent (l : List ℂ) (k : Nat) : ℂ := l.getD k 0

/-! ## Construction -/

/-- Python's `round` of a number: to the nearest integer, ties to even (rbm.py:349). -/
def pyRound (q : ℚ) : Int :=
  let f := ⌊q⌋
  if q - f < 1 / 2 then f else if 1 / 2 < q - f then f + 1 else if f % 2 = 0 then f else f + 1

/-- the argument `alpha`: an integer, or another number (rbm.py:371). -/
inductive Alpha
  | int (z : Int)
  | real (q : ℚ)
  deriving DecidableEq

/-- the value of `alpha` (rbm.py:349-350). -/
def Alpha.val : Alpha → ℚ
  | .int z => z
  | .real q => q

/-- `_get_hidden` (rbm.py:342-383): number of hidden units and of features. `sym` is the shape of the table of automorphisms.  The size of
    the space is compared with the table only if the table was not obtained from a graph; here it always is compared. -/
def getHidden (sym : Option (Nat × Nat)) (size : Nat) (nHidden : Option Int) (alpha : Option Alpha) : Except Err (Int × Int) :=
  match sym with
  | none =>
    match alpha with
    | none =>
      match nHidden with
      | none => .error .typeError
      | some h => if h < 0 then .error .runtimeError else .ok (h, h)
    | some a =>
      let m := pyRound (a.val * size)
      if a.val < 0 then .error .valueError
      else match nHidden with
        | none => .ok (m, m)
        | some h => if h ≠ m then .error .runtimeError else .ok (m, m)
  | some (rows, cols) =>
    if rows = 0 ∨ cols ≠ size then .error .runtimeError
    else match alpha with
      | some (.int z) => .ok ((z * cols).tdiv rows * rows, (z * cols).tdiv rows)
      | _ => .error .valueError

/-- what the constructor stores (rbm.py:93-137).  `sym` is the number of automorphisms and their table. -/
structure Cfg where
  n : Nat
  m : Nat
  useA : Bool
  useB : Bool
  sym : Option (Nat × (Nat → Nat → Nat))
  alpha : Nat
  real : Bool

/-- `RbmSpin.__init__` (rbm.py:93-137); `numpy.empty` rejects negative sizes. -/
def mkRbm (size : Nat) (nHidden : Option Int) (alpha : Option Alpha) (useA useB : Bool) (sym : Option (Nat × Nat × (Nat → Nat → Nat)))
    (real : Bool) : Except Err Cfg :=
  match getHidden (sym.map fun s => (s.1, s.2.1)) size nHidden alpha with
  | .error e => .error e
  | .ok (m, al) =>
    if m < 0 then .error .valueError
    else .ok { n := size, m := m.toNat, useA := useA, useB := useB, sym := sym.map fun s => (s.1, s.2.2), alpha := al.toNat, real := real }

/-! ## Layout of the parameters -/

/-- where the hidden biases start in the bare parameters (rbm.py:212-215). -/
def offB (c : Cfg) : Nat := if c.useA then c.n else 0
/-- where the weights start in the bare parameters (rbm.py:223-227). -/
def offW (c : Cfg) : Nat := offB c + if c.useB then c.m else 0
/-- `_n_bare_par` (rbm.py:113-117). -/
def nBare (c : Cfg) : Nat := offW c + c.n * c.m
/-- where the hidden biases start in the symmetric parameters (rbm.py:309-317). -/
def offBs (c : Cfg) : Nat := if c.useA then 1 else 0
/-- where the weights start in the symmetric parameters (rbm.py:319-326). -/
def offWs (c : Cfg) : Nat := offBs c + if c.useB then c.alpha else 0
/-- `n_par` (rbm.py:119-127, 139-142, 300). -/
def nPar (c : Cfg) : Nat :=
  match c.sym with
  | none => nBare c
  | some _ => offWs c + c.n * c.alpha

/-- the setter of `parameters` (rbm.py:277-292): the new parameters; a real machine keeps the real part, because its arrays are views on
    the real part of the copied complex arrays (251-269). -/
def setParameters (c : Cfg) (p : List ℂ) : Except Err (List ℂ) :=
  if p.length ≠ nPar c then .error .valueError
  else .ok (if c.real then p.map fun z => (z.re : ℂ) else p)

/-- `_set_bare_parameters` (rbm.py:385-402), as one flat array: visible biases, hidden biases, weights by rows. -/
def setBare (c : Cfg) (P : Nat) (perm : Nat → Nat → Nat) (p : List ℂ) : List ℂ :=
  (if c.useA then List.replicate c.n (ent p 0) else [])
    ++ (if c.useB then (List.range c.m).map fun j : Nat => ent p (offBs c + j / P) else [])
    ++ (List.range c.n).flatMap fun i : Nat => (List.range c.m).map fun j : Nat => ent p (offWs c + (perm (j % P) i * c.alpha + j / P))

/-- the bare parameters `_a`, `_b`, `_w` (rbm.py:119-137, 289-292). -/
def bare (c : Cfg) (p : List ℂ) : List ℂ :=
  match c.sym with
  | none => p
  | some (P, perm) => setBare c P perm p

/-- `_build_der_mat` (rbm.py:294-339): every column of `der_mat_symm` has a single 1; this is its row. -/
def derRows (c : Cfg) (P : Nat) (perm : Nat → Nat → Nat) : List Nat :=
  (if c.useA then List.replicate c.n 0 else [])
    ++ (if c.useB then (List.range c.m).map fun q : Nat => q / P + offBs c else [])
    ++ (List.range c.n).flatMap fun i : Nat => (List.range c.m).map fun j : Nat => j / P + c.alpha * perm (j % P) i + offWs c

/-- entry of the transposed matrix returned by `_build_der_mat` (rbm.py:339). -/
def derMat (c : Cfg) (P : Nat) (perm : Nat → Nat → Nat) (col row : Nat) : ℂ :=
  if (derRows c P perm).getD col 0 = row then 1 else 0

/-! ## Values -/

/-- `numpy.sign` of the real part (rbm.py:28). -/
noncomputable def sgn (r : ℝ) : ℂ := if r < 0 then -1 else if 0 < r then 1 else 0

/-- one summand of `_log_cosh_sum` (rbm.py:28-31). -/
noncomputable def logCosh1 (x : ℂ) : ℂ :=
  let y := x * sgn x.re
  y - Complex.log 2 + Complex.log (1 + Complex.exp (-2 * y))

/-- the input of hidden unit `j` (rbm.py:170-174, 217-220). -/
def theta (c : Cfg) (b : List ℂ) (x : Nat → ℂ) (j : Nat) : ℂ :=
  ∑ i ∈ range c.n, x i * ent b (offW c + (i * c.m + j)) + if c.useB then ent b (offB c + j) else 0

/-- `_log_val_kernel` (rbm.py:161-179) with an array `out` of the caller: what it holds afterwards (line 177 makes a new array), and what is
    returned. -/
noncomputable def logValBuf (c : Cfg) (b : List ℂ) (x : Nat → ℂ) : ℂ × ℂ :=
  let s := ∑ j ∈ range c.m, logCosh1 (theta c b x j)
  (s, if c.useA then s + ∑ i ∈ range c.n, x i * ent b i else s)

/-- `RbmSpin.log_val` (rbm.py:144-159). -/
noncomputable def logVal (c : Cfg) (p : List ℂ) (x : Nat → ℂ) : ℂ := (logValBuf c (bare c p) x).2

/-- `_bare_der_log` (rbm.py:201-231). -/
noncomputable def bareDerLog (c : Cfg) (b : List ℂ) (x : Nat → ℂ) : List ℂ :=
  (if c.useA then (List.range c.n).map fun i : Nat => x i else [])
    ++ (if c.useB then (List.range c.m).map fun j : Nat => Complex.tanh (theta c b x j) else [])
    ++ (List.range c.n).flatMap fun i : Nat => (List.range c.m).map fun j : Nat => x i * Complex.tanh (theta c b x j)

/-- `RbmSpin.der_log` (rbm.py:181-199). -/
noncomputable def derLog (c : Cfg) (p : List ℂ) (x : Nat → ℂ) : List ℂ :=
  match c.sym with
  | none => bareDerLog c p x
  | some (P, perm) => (List.range (nPar c)).map fun k : Nat =>
      ∑ q ∈ range (nBare c), ent (bareDerLog c (setBare c P perm p) x) q * derMat c P perm q k

/-! ## RbmMultiVal -/

/-- `_one_hot` (rbm.py:592-602) on a batch of `B` configurations of `N` sites: `vec.reshape((N, B, -1)) == local_states`, flattened to rows
    of length `N * L`.  Arrays are in row-major order, so entry `(u, v)` of the reshaped array is entry `u * B + v` of the flat one. -/
def oneHot (B N L : Nat) (vec : Nat → Nat → Int) (states : Nat → Int) (b q : Nat) : ℂ :=
  let flat := b * (N * L) + q
  let cell := flat / L
  let u := cell / B
  let v := cell % B
  let src := u * B + v
  if vec (src / N) (src % N) = states (flat % L) then 2 - 1 else 0 - 1

/-- `_make_extended_symmetry` (rbm.py:604-627). -/
def extendPerm (L : Nat) (perm : Nat → Nat → Nat) (k q : Nat) : Nat := perm k (q / L) * L + q % L

/-- the argument `automorphisms`: absent, `False`, or a table with its number of columns
(netket/legacy/machine/rbm.py:604-627). -/
inductive Autom
  | none
  | false
  | table (rows cols : Nat) (perm : Nat → Nat → Nat)

/-- rbm.py:343, 604-614: the tests of `RbmSpin` and of `RbmMultiVal` on `automorphisms`. -/
def automSpin (size : Nat) : Autom → Except Err (Option (Nat × Nat × (Nat → Nat → Nat)))
  | .none => .ok Option.none
  | .false => .ok Option.none
  | .table r c p => if r = 0 ∨ c ≠ size then .error .runtimeError else .ok (some (r, c, p))

/-- rbm.py:604-627: `numpy.asarray(False)` has no second axis. -/
def automMulti (size L : Nat) : Autom → Except Err (Option (Nat × Nat × (Nat → Nat → Nat)))
  | .none => .ok Option.none
  | .false => .error .runtimeError
  | .table r c p => if r = 0 ∨ c ≠ size then .error .runtimeError else .ok (some (r, c * L, extendPerm L p))

/-! ## RbmSpinPhase -/

/-- which of the general and the specific value of `alpha` or `n_hidden` is used (rbm.py:710-716). -/
def phaseArg {α : Type} (general specific : Option α) : Option α :=
  match general with
  | some g => some g
  | none => specific

/-- `RbmSpinPhase.log_val` (rbm.py:746-762). -/
noncomputable def phaseLogVal (ca cp : Cfg) (pa pp : List ℂ) (x : Nat → ℂ) : ℂ :=
  logVal ca pa x + Complex.I * logVal cp pp x

/-- `RbmSpinPhase.der_log` (rbm.py:764-787). -/
noncomputable def phaseDerLog (ca cp : Cfg) (pa pp : List ℂ) (x : Nat → ℂ) : List ℂ :=
  derLog ca pa x ++ (derLog cp pp x).map fun z => z * Complex.I

/-- the setter of `RbmSpinPhase.parameters` (rbm.py:800-803): amplitude first, so a failure of the second assignment leaves the first. -/
def phaseSet (ca cp : Cfg) (s : List ℂ × List ℂ) (p : List ℂ) : (List ℂ × List ℂ) × Option Err :=
  match setParameters ca (p.take (nPar ca)) with
  | .error e => (s, some e)
  | .ok a =>
    match setParameters cp (p.drop (nPar ca)) with
    | .error e => ((a, s.2), some e)
    | .ok b => ((a, b), none)

/-! ## Jastrow -/

/-- the pairs `i < j` in the order of the loops (jastrow.py:81-83, 222-223). -/
def pairs (n : Nat) : List (Nat × Nat) :=
  (List.range n).flatMap fun i : Nat => (List.range (n - (i + 1))).map fun d : Nat => (i, i + 1 + d)

/-- `_Smap` without automorphisms (jastrow.py:79-86). -/
def smapPlain (n i j : Nat) : Nat := (pairs n).idxOf (min i j, max i j)

/-- `W[u, v] = k; W[v, u] = k` (jastrow.py:228-229). -/
def setSym (W : Nat → Nat → Nat) (u v k : Nat) : Nat → Nat → Nat :=
  fun a b => if (a = u ∧ b = v) ∨ (a = v ∧ b = u) then k else W a b

/-- jastrow.py:224-229: one pair, all automorphisms. -/
def markPair (P : Nat) (am : Nat → Nat → Nat) (W : Nat → Nat → Nat) (q : Nat × Nat) (k : Nat) : Nat → Nat → Nat :=
  (List.range P).foldl (fun W l => setSym W (am l q.1) (am l q.2) k) W

/-- jastrow.py:219-231: the table after the first loop. -/
def markAll (n P : Nat) (am : Nat → Nat → Nat) : Nat → Nat → Nat :=
  (pairs n).zipIdx.foldl (fun W q => markPair P am W q.1 q.2) fun _ _ => 0

/-- jastrow.py:233-242: the labels in order of first appearance (the keys of `pars_d`). -/
def labels (W : Nat → Nat → Nat) : List (Nat × Nat) → List Nat → List Nat
  | [], seen => seen
  | q :: r, seen => if W q.1 q.2 ∈ seen then labels W r seen else labels W r (seen ++ [W q.1 q.2])

/-- `_gen_symm` (jastrow.py:214-253): the table, and the number of parameters. -/
def genSymm (n P : Nat) (am : Nat → Nat → Nat) : (Nat → Nat → Nat) × Nat :=
  let W := markAll n P am
  let ls := labels W (pairs n) []
  (fun i j => ls.idxOf (W (min i j) (max i j)), ls.length)

/-- what `Jastrow.__init__` stores (jastrow.py:77-108). -/
structure JCfg where
  n : Nat
  nSym : Nat
  smap : Nat → Nat → Nat
  useA : Bool

/-- `Jastrow.__init__` (jastrow.py:64-108). -/
def mkJastrow (n : Nat) (useA : Bool) (autom : Option (Nat × Nat × (Nat → Nat → Nat))) : Except Err JCfg :=
  if n < 2 then .error .valueError
  else match autom with
    | none => .ok ⟨n, n * (n - 1) / 2, smapPlain n, useA⟩
    | some (r, c, am) => if r = 0 ∨ c ≠ n then .error .runtimeError else .ok ⟨n, (genSymm n r am).2, (genSymm n r am).1, useA⟩

/-- where the two-body parameters start (jastrow.py:177-181, 196-200). -/
def jOff (c : JCfg) : Nat := if c.useA then c.n else 0

/-- `n_par` (jastrow.py:106). -/
def jPar (c : JCfg) : Nat := c.nSym + if c.useA then c.n else 0

/-- `_log_val_kernel` (jastrow.py:132-147) with an array of the caller: its content and the returned value. -/
def jLogBuf (c : JCfg) (p : List ℂ) (x : Nat → ℂ) : ℂ × ℂ :=
  let s := ((pairs c.n).map fun q => x q.1 * ent p (jOff c + c.smap q.1 q.2) * x q.2).sum
  (s, if c.useA then s + ∑ i ∈ range c.n, x i * ent p i else s)

/-- `Jastrow.log_val` (jastrow.py:115-130). -/
def jLogVal (c : JCfg) (p : List ℂ) (x : Nat → ℂ) : ℂ := (jLogBuf c p x).2

/-- `_der_log_kernel` (jastrow.py:165-188): the sums of the inner loops. -/
def jDerLog (c : JCfg) (x : Nat → ℂ) : List ℂ :=
  (List.range (jPar c)).map fun k : Nat =>
    (if c.useA ∧ k < c.n then x k else 0)
      + ((pairs c.n).map fun q => if c.smap q.1 q.2 + jOff c = k then x q.1 * x q.2 else 0).sum

/-! ## Methods of all machines -/

/-- `psi.real.max()` (abstract_machine.py:118, 147); numpy raises for an empty array. -/
noncomputable def maxRe : List ℂ → Except Err ℝ
  | [] => .error .valueError
  | z :: r => .ok (r.foldl (fun (m : ℝ) (w : ℂ) => max m w.re) z.re)

/-- the norm of an array (abstract_machine.py:122). -/
noncomputable def l2 (l : List ℂ) : ℝ := Real.sqrt (l.map fun z => ‖z‖ ^ 2).sum

/-- `to_array` (abstract_machine.py:98-127); `lv` are the values of `log_val` on all states. -/
noncomputable def toArray (indexable : Bool) (normalize : Bool) (lv : List ℂ) : Except Err (List ℂ) :=
  if indexable then
    match maxRe lv with
    | .error e => .error e
    | .ok M =>
      let psi := lv.map fun z => Complex.exp (z - M)
      .ok (if normalize then psi.map fun z => z / (l2 psi : ℂ) else psi)
  else .error .runtimeError

/-- `log_norm` (abstract_machine.py:129-152). -/
noncomputable def logNorm (indexable : Bool) (order : ℝ) (lv : List ℂ) : Except Err ℝ :=
  if indexable then
    match maxRe lv with
    | .error e => .error e
    | .ok M => .ok (Real.log (lv.map fun z => Real.exp (order * (z.re - M))).sum + M * order)
  else .error .runtimeError

/-- `vector_jacobian_prod` for a matrix of configurations (abstract_machine.py:55, 66-77); `jac` are the rows of `der_log`. -/
def vjp2 (nPar : Nat) (conjugate : Bool) (jac : List (List ℂ)) (vec : List ℂ) : Except Err (List ℂ) :=
  if jac.length ≠ vec.length then .error .valueError
  else .ok ((List.range nPar).map fun k : Nat =>
    ((jac.zip vec).map fun q => if conjugate then star (ent q.1 k) * q.2 else ent q.1 k * star q.2).sum)

/-- `vector_jacobian_prod` for a 3d array of `T` times `B` configurations (abstract_machine.py:55-64): the flattened vector of length `len` is
    contracted with the first axis only.  The result has `B * nPar` entries after line 75. -/
def vjp3 (nPar : Nat) (conjugate : Bool) (B : Nat) (jac : List (List (List ℂ))) (vec : List ℂ) : Except Err (List ℂ) :=
  if jac.length ≠ vec.length then .error .valueError
  else .ok ((List.range B).flatMap fun s : Nat => (List.range nPar).map fun k : Nat =>
    ((jac.zip vec).map fun q => if conjugate then q.2 * star (ent (q.1.getD s []) k) else star q.2 * ent (q.1.getD s []) k).sum)

/-! ## Density matrices -/

/-- the argument `normalize` of `to_array` (abstract_density_matrix.py:111-116). -/
inductive Normalize
  | trace
  | l2
  | off
  deriving DecidableEq

/-- the trace of a flattened `d × d` matrix (abstract_density_matrix.py:112). -/
def traceFlat (d : Nat) (l : List ℂ) : ℂ := ∑ i ∈ range d, ent l (i * d + i)

/-- `AbstractDensityMatrix.to_array` (abstract_density_matrix.py:82-120): `shift` is the largest entry of the configurations (line 108). -/
noncomputable def dmToArray (indexable : Bool) (mode : Normalize) (d : Nat) (shift : ℝ) (lv : List ℂ) : Except Err (List ℂ) :=
  if indexable then
    let rho := lv.map fun z => Complex.exp (z - shift)
    .ok (match mode with
      | .trace => rho.map fun z => z / traceFlat d rho
      | .l2 => rho.map fun z => z / (l2 rho : ℂ)
      | .off => rho)
  else .error .runtimeError

/-- `to_matrix` (abstract_density_matrix.py:59-80): the argument `normalize` is not used. -/
noncomputable def dmToMatrix (indexable : Bool) (_normalize : Bool) (d : Nat) (shift : ℝ) (lv : List ℂ) : Except Err (List ℂ) :=
  dmToArray indexable .trace d shift lv

/-- `log_trace` (abstract_density_matrix.py:122-143); `lv` are the values of `log_val` on the diagonal. -/
noncomputable def dmLogTrace (indexable : Bool) (lv : List ℂ) : Except Err ℝ :=
  if indexable then
    match maxRe lv with
    | .error e => .error e
    | .ok M => .ok (Real.log (Real.exp (lv.map fun z => z.re - M).sum) + M)
  else .error .runtimeError

/-- `RbmSpin.__init__` of density matrices (density_matrix/rbm.py:17-37): lines 20 and 25 use names which are not defined. -/
def mkDmRbm (size : Nat) (nHidden : Option Int) (alpha : Option Alpha) (useA useB : Bool) (autom : Option (Nat × Nat × (Nat → Nat → Nat)))
    (real : Bool) : Except Err Cfg :=
  match autom with
  | some _ => .error .nameError
  | none => mkRbm (size * 2) nHidden alpha useA useB none real

/-- `numpy.hstack((xr, xc))` (density_matrix/rbm.py:61, 80). -/
def stack (size : Nat) (xr xc : Nat → ℂ) (i : Nat) : ℂ := if i < size then xr i else xc (i - size)

/-- `RbmSpin.log_val(xr, xc)` of density matrices (density_matrix/rbm.py:41-61). -/
noncomputable def dmLogVal (c : Cfg) (size : Nat) (p : List ℂ) (xr xc : Nat → ℂ) : ℂ := logVal c p (stack size xr xc)

/-- `Diagonal.log_val` (density_matrix/diagonal.py:13-25). -/
noncomputable def diagLogVal (c : Cfg) (size : Nat) (p : List ℂ) (x : Nat → ℂ) : ℂ := dmLogVal c size p x x

/-- assignment to `Diagonal.parameters` (density_matrix/diagonal.py:40-43): the property has no setter. -/
def diagSet (p : List ℂ) (_new : List ℂ) : List ℂ × Option Err := (p, some .attributeError)

end Verif.LegacyMachine
