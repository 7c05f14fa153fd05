import Verif.Model.Metropolis
import Verif.Model.DiscreteHilbert

/-! Parallel tempering: netket/sampler/metropolis_pt.py.

One chain of `n` replicas: every array of the code has the chains as its leading axis (or `n_chains * n_replicas` rows, chain by chain) and no
operation mixes chains. Reals are an ordered field `R` with `exp` as an argument; random draws are arguments. An even number of replicas is
assumed where arrays are paired up (the shapes do not fit otherwise). A number that is not finite (NaN or infinite) is `none`. -/

namespace Verif.PT
open Verif.Hilbert

variable {X R : Type} [Field R] [LinearOrder R]

/-- metropolis_pt.py:113-131: the check of `n_replicas` in `__post_init__`; `experimental` is the configuration flag; `isInt` is
    `isinstance(n_replicas, int)`. -/
def postInit (experimental isInt : Bool) (nReplicas : ℚ) : Except Err Unit :=
  if !experimental then .error .runtimeError
  else if !isInt && decide (nReplicas > 0) && decide (Int.floor (nReplicas / 2) * 2 = nReplicas) then .error .valueError
  else .ok ()

/-- metropolis_pt.py:40-50, without the state of the rule. -/
structure PtState (X R : Type) where
  σ : List X
  beta : List R
  beta0 : Nat
  nAccB : List Nat
  pos : Option R
  diff : Option R
  exch : Nat
  nSteps : Nat
  nAcc : Nat

/-- metropolis_pt.py:147, 173: `1.0 - jnp.arange(n_replicas) / n_replicas`. -/
def betas (n : Nat) : List R := (List.range n).map fun r : Nat => 1 - (r : R) / (n : R)

/-- metropolis_pt.py:137-164: `_init_state`; `zero` is a row of zeros. -/
def initState (n : Nat) (zero : X) : PtState X R :=
  { σ := List.replicate n zero, beta := betas n, beta0 := 0, nAccB := List.replicate n 0, pos := some 0, diff := some 0, exch := 0,
    nSteps := 0, nAcc := 0 }

/-- metropolis_pt.py:166-188: `_reset` with the random configurations `rand`; `beta` and `beta_0_index` stay. -/
def reset (n : Nat) (rand : List X) (st : PtState X R) : PtState X R :=
  { st with σ := rand, nAccB := List.replicate n 0, pos := some 0, diff := some 0, exch := 0, nSteps := 0, nAcc := 0 }

/-- metropolis_pt.py:239-247 for one replica. -/
def accept (exp : R → R) (beta u new old : R) (corr : Option R) : Bool :=
  match corr with
  | some c => decide (u < exp (beta * (new - old + c)))
  | none => decide (u < exp (beta * (new - old)))

/-- metropolis_pt.py:239-247 for all replicas. -/
def doAccept (exp : R → R) (n : Nat) (beta u new old : List R) (corr : Option (List R)) : List Bool :=
  (List.range n).map fun r : Nat => accept exp (beta.getD r 0) (u.getD r 0) (new.getD r 0) (old.getD r 0) (corr.map fun c => c.getD r 0)

/-- metropolis_pt.py:271-273: `arange(0, n_replicas, 2) + swap_order`. -/
def idxs (n so : Nat) : List Nat := (List.range ((n + 1) / 2)).map fun k : Nat => 2 * k + so

/-- metropolis_pt.py:275: `(idxs + 1) % n_replicas`. -/
def inn (n so : Nat) : List Nat := (idxs n so).map fun i : Nat => (i + 1) % n

/-- `row[is]` of jax (metropolis_pt.py:283, 290, 300): indices beyond the end are clamped. -/
def gather {A : Type} (row : List A) (is : List Nat) : List A := is.filterMap fun i : Nat => row[min i (row.length - 1)]?

/-- `jax.ops.index_update(row, is, vals)` (metropolis_pt.py:280-293): indices beyond the end are dropped. -/
def scatter {A : Type} (row : List A) (is : List Nat) (vals : List A) : List A := (is.zip vals).foldl (fun r p => r.set p.1 p.2) row

/-- metropolis_pt.py:278-294: `swap_rows` for one row. -/
def swapRow {A : Type} (row : List A) (idx inn : List Nat) : List A :=
  scatter (scatter row idx (gather row inn)) inn (gather row idx)

/-- metropolis_pt.py:296-310: `exp` of the summed changes of the two members of every pair. -/
def pairProb (exp : R → R) (n so : Nat) (proposed beta lp : List R) : List R :=
  let change := (List.range n).map fun r : Nat => (proposed.getD r 0 - beta.getD r 0) * lp.getD r 0
  List.zipWith (fun i j => exp (change.getD (min i (n - 1)) 0 + change.getD j 0)) (idxs n so) (inn n so)

/-- metropolis_pt.py:318-320: `jnp.dstack((d, d)).reshape((-1, n_replicas))` for one row. -/
def stack2 (d : List Bool) : List Bool := d.flatMap fun b => [b, b]

/-- metropolis_pt.py:323-329: `jnp.roll(x, 1)` if `swap_order` is not zero. -/
def fixSwap (d : List Bool) (so : Nat) : List Bool :=
  if so = 0 then d else (List.range d.length).map fun i : Nat => d.getD ((i + d.length - 1) % d.length) false

/-- metropolis_pt.py:312-329: which replicas take part in an exchange. -/
def doSwap (us prob : List R) (so : Nat) : List Bool := fixSwap (stack2 (List.zipWith (fun u p => decide (u < p)) us prob)) so

/-- metropolis_pt.py:367-372: `proposed_beta_0_index`. -/
def proposedIndex (n so b : Nat) : Nat :=
  (((b : ℤ) + (-((so : ℤ) % 2) * 2 + 1) * (-((b : ℤ) % 2) * 2 + 1)) % (n : ℤ)).toNat

/-- metropolis_pt.py:388-391: running mean and sum of squares of `beta_0_index`; a division by zero is not finite. -/
def stats (b : Nat) (pos diff : Option R) (count : Nat) : Option R × Option R :=
  match pos with
  | none => (none, none)
  | some p =>
    if count = 0 then (none, none)
    else
      let d := (b : R) - p
      let p' := p + d / (count : R)
      (some p', diff.map fun q => q + d * ((b : R) - p'))

/-- random numbers and proposals of one pass of the loop (metropolis_pt.py:231, 238, 262-267, 312-314). -/
structure Draw (X R : Type) where
  transition : List X → List X × Option (List R)
  u : List R
  so : Nat
  us : List R

/-- metropolis_pt.py:204-214: variables of the loop scope. -/
structure Scope (X R : Type) where
  σ : List X
  logProb : List R
  beta : List R
  beta0 : Nat
  nAccB : List Nat
  pos : Option R
  diff : Option R

/-- metropolis_pt.py:216-391: pass `i` of the loop; `beta_0_index` of the start of the call (`st`) is used for the exchange (364-372), and
    `s.beta` is not assigned (360 is commented out). -/
def sweep (exp : R → R) (lp : X → R) (n : Nat) (st : PtState X R) (d : Draw X R) (i : Nat) (s : Scope X R) : Scope X R :=
  let t := d.transition s.σ
  let new := t.1.map lp
  let acc := doAccept exp n s.beta d.u new s.logProb t.2
  let logProb := Verif.Metro.whereRows acc new s.logProb
  let nAccB := List.zipWith (fun (k : Nat) (a : Bool) => k + if a then 1 else 0) s.nAccB acc
  let proposed := swapRow s.beta (idxs n d.so) (inn n d.so)
  let swap := doSwap d.us (pairProb exp n d.so proposed st.beta logProb) d.so
  let beta0 := if swap.getD st.beta0 false then proposedIndex n d.so st.beta0 else s.beta0
  let q := stats beta0 s.pos s.diff (st.exch + i)
  { σ := Verif.Metro.whereRows acc t.1 s.σ
    logProb := logProb
    beta := s.beta
    beta0 := beta0
    nAccB := Verif.Metro.whereRows swap (swapRow nAccB (idxs n d.so) (inn n d.so)) nAccB
    pos := q.1
    diff := q.2 }

/-- metropolis_pt.py:216: `for i in s.range(n_sweeps)`, passes `i`, `i + 1`, …. -/
def sweeps (exp : R → R) (lp : X → R) (n : Nat) (st : PtState X R) (draws : Nat → Draw X R) : Nat → Nat → Scope X R → Scope X R
  | 0, _, s => s
  | k + 1, i, s => sweeps exp lp n st draws k (i + 1) (sweep exp lp n st (draws i) i s)

/-- metropolis_pt.py:204-214. -/
def startScope (lp : X → R) (st : PtState X R) : Scope X R := ⟨st.σ, st.σ.map lp, st.beta, st.beta0, st.nAccB, st.pos, st.diff⟩

/-- metropolis_pt.py:190-410: `_sample_next`: the new state and the sample returned; `n_accepted` is not assigned (396). -/
def sampleNext (exp : R → R) (lp : X → R) (n nSweeps : Nat) (draws : Nat → Draw X R) (st : PtState X R) : PtState X R × Option X :=
  let s := sweeps exp lp n st draws nSweeps 0 (startScope lp st)
  ({ σ := s.σ, beta := s.beta, beta0 := s.beta0, nAccB := s.nAccB, pos := s.pos, diff := s.diff, exch := st.exch + nSweeps,
     nSteps := st.nSteps + nSweeps, nAcc := st.nAcc }, s.σ[s.beta0]?)

end Verif.PT
