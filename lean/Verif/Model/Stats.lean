import Mathlib.Data.Rat.Defs
import Mathlib.Algebra.Field.Basic
import Mathlib.Algebra.Order.Field.Basic
import Mathlib.Algebra.Order.Ring.Defs
import Mathlib.Data.Nat.Cast.Basic
import Mathlib.Algebra.BigOperators.Group.List.Basic

/-!
Means, variances and Monte Carlo statistics over MPI ranks: netket/stats/mpi_stats.py,
netket/stats/mc_stats.py, netket/utils/mpi/primitives.py.

An array distributed over the ranks is the list of the local arrays (`shards`), one per rank. A
collective is a function of the list; the result on rank `r` is given by an index where it depends on
the rank. Numbers are elements of a field; `jnp.abs(x) ** 2` is a function `abs2` to the field of
variances (for complex data `normSq`). NaN is `none`.
-/

namespace Verif.Stats

variable {K R : Type}

/-- `mpi_sum_jax` (netket/utils/mpi/primitives.py:39-58): the sum over the ranks; on one rank the value. -/
def mpiSum [AddCommMonoid K] (xs : List K) : K := xs.sum

/-- `mpi_mean_jax` (netket/utils/mpi/primitives.py:116-130). -/
def mpiMean [Field K] (xs : List K) : K := mpiSum xs / (xs.length : K)

/-- `a.mean()` of a local array (jax): sum divided by size (netket/stats/mpi_stats.py:40-61). -/
def localMean [Field K] (xs : List K) : K := xs.sum / (xs.length : K)

/-- `mean(a)` (netket/stats/mpi_stats.py:41-62). -/
def mean [Field K] (shards : List (List K)) : K := mpiMean (shards.map localMean)

/-- `sum(a)` (netket/stats/mpi_stats.py:65-92). -/
def sum [AddCommMonoid K] (shards : List (List K)) : K := mpiSum (shards.map List.sum)

/-- `total_size(a)` on a rank with local array `a` (netket/stats/mpi_stats.py:124-147): local size times
the number of ranks. -/
def totalSize (n : Nat) (a : List K) : Nat := a.length * n

/-- `subtract_mean(x)` (netket/stats/mpi_stats.py:20-38), all ranks. -/
def subtractMean [Field K] (shards : List (List K)) : List (List K) :=
  shards.map fun a => a.map fun x => x - mean shards

/-- `var(a, ddof=ddof)` on rank `r` (netket/stats/mpi_stats.py:95-125). -/
def var [Field K] [Field R] (abs2 : K → R) (shards : List (List K)) (r : Nat) (ddof : Nat := 0) : R :=
  sum (shards.map fun a => a.map fun x => abs2 (x - mean shards)) /
    ((totalSize shards.length (shards.getD r []) : R) - (ddof : R))

/-- `mean(a, axis=0)` of a distributed list of rows, component `j` (netket/stats/mpi_stats.py:41-62). -/
def meanAxis {J : Type} [Field K] (shards : List (List (J → K))) (j : J) : K :=
  mean (shards.map fun a => a.map fun row => row j)

/-- consecutive pieces of length `l` of the first `n * l` entries (`reshape((-1, l))` of a row)
(netket/stats/mc_stats.py:112-117). -/
def pieces {A : Type} (l : Nat) (n : Nat) (row : List A) : List (List A) :=
  (List.range n).map fun i => (row.drop (i * l)).take l

/-- `_get_blocks` (netket/stats/mc_stats.py:112-117): means of the blocks of every row. -/
def getBlocks [Field K] (rows : List (List K)) (chainLength l : Nat) : List K :=
  rows.flatMap fun row => (pieces l (chainLength / l) row).map localMean

/-- The fields of `Stats` (netket/stats/mc_stats.py:53-62). -/
structure Result (K R : Type) where
  /-- `mean` -/
  mean : K
  /-- `error_of_mean` -/
  error : Option R
  /-- `variance` -/
  variance : R
  /-- `tau_corr` -/
  tau : Option R
  /-- `R_hat` -/
  rHat : Option R
  deriving DecidableEq

/-- `a / b` where the divisor may be zero: NaN (the dividend vanishes with the divisor wherever this is
used in netket/stats/mc_stats.py:183-184, 248). -/
def fdiv [Field R] [DecidableEq R] (a b : R) : Option R := if b = 0 then none else some (a / b)

/-- `((ts / n) * v / bare_var - 1) * 0.5` (netket/stats/mc_stats.py:183-184). -/
def tauOf [Field R] [DecidableEq R] (ts n : Nat) (v bare : R) : Option R :=
  (fdiv (((ts : R) / (n : R)) * v) bare).map fun q => (q - 1) * (1 / 2)

/-- comparison `tau < bound` with NaN (netket/stats/mc_stats.py:186-187). -/
def ltF [LT R] [DecidableLT R] (t : Option R) (b : R) : Bool :=
  match t with
  | some x => decide (x < b)
  | none => false

/-- `_statistics` on rank `r` for 2d data: every rank has the list of its rows, all of length
`chainLength` (netket/stats/mc_stats.py:161-254). -/
def statistics [Field K] [Field R] [LinearOrder R] (abs2 : K → R) (sqrt : R → R)
    (shards : List (List (List K))) (chainLength batchSize : Nat) (r : Nat) : Result K R :=
  let flat := shards.map List.flatten
  let n := shards.length
  let mean' := mean flat
  let variance := var abs2 flat r
  let ts := totalSize n (flat.getD r [])
  let bMeans := shards.map fun rows => rows.map localMean
  let batchVar := var abs2 bMeans r
  let nBatches := totalSize n (bMeans.getD r [])
  let lBlock := max 1 (chainLength / batchSize)
  let blocks := shards.map fun rows => getBlocks rows chainLength lBlock
  let blockVar := var abs2 blocks r
  let nBlocks := totalSize n (blocks.getD r [])
  let tauBatch := tauOf ts nBatches batchVar variance
  let tauBlock := tauOf ts nBlocks blockVar variance
  let batchGood := ltF tauBatch (6 * (chainLength : R)) && decide (batchSize ≤ nBatches)
  let blockGood := ltF tauBlock (6 * (lBlock : R)) && decide (batchSize ≤ nBlocks)
  let et : Option R × Option R :=
    if batchGood then (some (sqrt (batchVar / (nBatches : R))), tauBatch.map fun t => max t 0)
    else if blockGood then (some (sqrt (blockVar / (nBlocks : R))), tauBlock.map fun t => max t 0)
    else (none, none)
  let rHat : Option R :=
    if 1 < nBatches then
      (fdiv batchVar variance).map fun q => sqrt (((chainLength : R) - 1) / (chainLength : R) + q)
    else none
  { mean := mean', error := et.1, variance := variance, tau := et.2, rHat := rHat }

end Verif.Stats
