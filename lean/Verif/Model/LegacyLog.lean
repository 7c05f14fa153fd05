import Mathlib.Data.Complex.Basic
import Mathlib.Data.Rat.Floor
import Verif.Model.DiscreteHilbert
import Verif.Model.Stats

/-!
The statistics, loggers and random numbers of netket/legacy, the function `estimate_expectations`, the old JSON logger
(netket/logging/json_log_old.py) and the tensorboard loggers.

Simplifications: numbers are exact; an array distributed over the processes is the list of the local arrays; strings of paths are lists of their
components until they are joined; what `json` and `orjson` cannot encode is told by a function.
-/

namespace Verif.LegacyLog
open Verif.Hilbert (Err)
open Verif.Stats (localMean tauOf ltF fdiv pieces)

variable {K R : Type}

/-! ## Statistics -/

/-- `mean(a)` (netket/legacy/stats/mpi_stats.py:32-57): the mean of every process, summed and divided by their number. -/
def mean [Field K] (shards : List (List K)) : K := (shards.map localMean).sum / (shards.length : K)

/-- `sum(a)` (netket/legacy/stats/mpi_stats.py:60-82). -/
def sum [AddCommMonoid K] (shards : List (List K)) : K := (shards.map List.sum).sum

/-- `total_size(a)` (netket/legacy/stats/mpi_stats.py:116-137): the sizes are summed over the processes. -/
def totalSize (shards : List (List K)) : Nat := (shards.map List.length).sum

/-- `var(a, ddof=ddof)` (netket/legacy/stats/mpi_stats.py:85-113). -/
def var [Field K] [Field R] (abs2 : K → R) (shards : List (List K)) (ddof : Nat := 0) : R :=
  sum (shards.map fun a => a.map fun x => abs2 (x - mean shards)) / ((totalSize shards : R) - (ddof : R))

/-- `subtract_mean(x)` (netket/legacy/stats/mpi_stats.py:15-29): the array given on every process is changed; first what is returned, second what
    the argument holds afterwards. -/
def subtractMean [Field K] (shards : List (List K)) : List (List K) × List (List K) :=
  let out := shards.map fun a => a.map fun x => x - mean shards
  (out, out)

/-- `_get_blocks` (netket/legacy/stats/mc_stats.py:75-84). -/
def getBlocks [Field K] (rows : List (List K)) (chainLength l : Nat) : List K :=
  rows.flatMap fun row => (pieces l (chainLength / l) row).map localMean

/-- `data.shape[1]` of a process (netket/legacy/stats/mc_stats.py:76-84). -/
def chainOf (rows : List (List K)) : Nat := (rows.headD []).length

/-- `statistics(data)` for matrices (netket/legacy/stats/mc_stats.py:87-175), on process `r`. -/
def statistics [Field K] [Field R] [LinearOrder R] (abs2 : K → R) (sqrt : R → R) (shards : List (List (List K))) (r : Nat) : Stats.Result K R :=
  let flat := shards.map List.flatten
  let variance := var abs2 flat
  let ts := totalSize flat
  let bMeans := shards.map fun rows => rows.map localMean
  let batchVar := var abs2 bMeans
  let nBatches := totalSize bMeans
  let chain := chainOf (shards.getD r [])
  let lBlock := max 1 (chain / 32)
  let blocks := shards.map fun rows => getBlocks rows (chainOf rows) (max 1 (chainOf rows / 32))
  let blockVar := var abs2 blocks
  let nBlocks := totalSize blocks
  let tauBatch := tauOf ts nBatches batchVar variance
  let tauBlock := tauOf ts nBlocks blockVar variance
  let blockGood := decide (32 ≤ nBlocks) && ltF tauBlock (6 * (lBlock : R))
  let batchGood := decide (32 ≤ nBatches) && ltF tauBatch (6 * (chain : R))
  let et : Option R × Option R :=
    if batchGood then (some (sqrt (batchVar / (nBatches : R))), tauBatch.map fun t => max 0 t)
    else if blockGood then (some (sqrt (blockVar / (nBlocks : R))), tauBlock.map fun t => max 0 t)
    else (none, none)
  let rHat : Option R :=
    if 1 < nBatches then (fdiv batchVar variance).map fun q => sqrt (((chain : R) - 1) / (chain : R) + q) else none
  { mean := mean flat, error := et.1, variance := variance, tau := et.2, rHat := rHat }

/-- the fields of `Stats`; NaN is `none` (netket/legacy/stats/mc_stats.py:26-73). -/
inductive StatField
  | mean | variance | error | rHat | tau
  deriving DecidableEq

/-- `Stats.__getitem__` (netket/legacy/stats/mc_stats.py:62-72): the field for a name, `none` is python's `None`. -/
def getItem (name : String) : Option StatField :=
  if name = "mean" ∨ name = "Mean" then some .mean
  else if name = "variance" ∨ name = "Variance" then some .variance
  else if name = "error_of_mean" ∨ name = "Sigma" then some .error
  else if name = "R_hat" ∨ name = "R" then some .rHat
  else if name = "tau_corr" ∨ name = "TauCorr" then some .tau
  else none

/-- `Stats.__getattr__` of netket/stats/mc_stats.py:95-109. -/
def getAttr (name : String) : Except Err StatField :=
  match getItem name with
  | some f => .ok f
  | none => .error .attributeError

/-- the complex mean as `to_json` gives it (netket/legacy/stats/mc_stats.py:44-51, netket/stats/mc_stats.py:77-84). -/
def jsonMean (mean : ℂ) : ℝ := mean.re

/-- a field of the new `Stats`: an array or a python number (the defaults)
(netket/stats/mc_stats.py:53-84). -/
inductive Val
  | array | number
  deriving DecidableEq

/-- `Stats.to_dict` of netket/stats/mc_stats.py:64-71: python numbers have no `item`. -/
def toDict (mean variance error rHat tau : Val) : Except Err Unit :=
  if mean = .number ∨ variance = .number ∨ error = .number ∨ rHat = .number ∨ tau = .number then .error .attributeError else .ok ()

/-! ## `estimate_expectations` -/

/-- netket/legacy/variational.py:46-47: the number of discarded samples. -/
def discard (n : Option Nat) (nSamples : Nat) : Nat :=
  match n with
  | none => nSamples / 10
  | some n => if n = 0 then nSamples / 10 else n

/-- netket/legacy/variational.py:56-58: the statistics: the samples of all chains of a process are one row. -/
def estStats [Field K] [Field R] [LinearOrder R] (abs2 : K → R) (sqrt : R → R) (lvs : List (List K)) (r : Nat) : Stats.Result K R :=
  statistics abs2 sqrt (lvs.map fun l => [l]) r

/-- netket/legacy/variational.py:60-67: the gradient on process `q`: local values and log-derivatives of the samples of all processes. -/
noncomputable def estGrad {P : Type} (nSamples : Nat) (rs : List (List (ℂ × (P → ℂ)))) (q : Nat) (k : P) : ℂ :=
  let m := mean (rs.map fun r => r.map fun x => x.1)
  ((rs.getD q []).map fun x => star (x.2 k) * ((x.1 - m) / (nSamples : ℂ))).sum

/-! ## JSON loggers: netket/legacy/logging/_json_log.py and netket/logging/json_log_old.py -/

/-- a dictionary given to the logger: its entries, and the entry "Iteration"
(netket/logging/json_log_old.py:114-117). -/
structure Item where
  data : Nat
  iteration : Option Int
  deriving DecidableEq

/-- an entry of `_json_out["Output"]`: read from a file, or the caller's dictionary
(netket/logging/json_log_old.py:114-117). -/
inductive Rec
  | old (i : Item)
  | ref (a : Nat)
  deriving DecidableEq

/-- the files: `none` is no file; the content `none` is not valid JSON
(netket/logging/json_log_old.py:30-32, 88-104). -/
structure Files where
  log : Option (Option (List Item))
  wf : Option Nat
  deriving DecidableEq

/-- a logger, the dictionaries of the caller and the files
(netket/logging/json_log_old.py:104-112). -/
structure St where
  out : List Rec
  writeEvery : Int
  saveEvery : Int
  oldStep : Int
  nW : Nat
  nP : Nat
  heap : Nat → Item
  files : Files

/-- modes (_json_log.py:38-48, json_log_old.py:76-87). -/
inductive Mode
  | write | append | fail
  deriving DecidableEq

/-- _json_log.py:38-48, json_log_old.py:76-87. -/
def parseMode (s : String) : Except Err Mode :=
  if s = "w" ∨ s = "write" then .ok .write
  else if s = "a" ∨ s = "append" then .ok .append
  else if s = "x" ∨ s = "fail" then .ok .fail
  else .error .valueError

/-- `JsonLog.__init__` (_json_log.py:34-74, json_log_old.py:72-112). -/
def mk (mode : String) (saveEvery writeEvery : Int) (heap : Nat → Item) (files : Files) : Except Err St :=
  match parseMode mode with
  | .error e => .error e
  | .ok m =>
    let start : Except Err (List Rec) :=
      if (files.log.isSome = true ∨ files.wf.isSome = true) ∧ m = .append then
        match files.log with
        | none => .error .valueError
        | some none => .error .valueError
        | some (some l) => .ok (l.map .old)
      else if (files.log.isSome = true ∨ files.wf.isSome = true) ∧ m = .fail then .error .valueError
      else .ok []
    match start with
    | .error e => .error e
    | .ok out => .ok ⟨out, writeEvery, saveEvery, 0, 0, 0, heap, files⟩

/-- what is written for an entry: the dictionary as it is now
(netket/logging/json_log_old.py:134-138). -/
def value (heap : Nat → Item) : Rec → Item
  | .old i => i
  | .ref a => heap a

/-- `_flush_log` (_json_log.py:96-100, json_log_old.py:134-138): the file is opened, hence emptied, before the data are encoded. -/
def flushLog (enc : Nat → Bool) (s : St) : St × Option Err :=
  let items := s.out.map (value s.heap)
  if items.all fun i => enc i.data then ({ s with files := { s.files with log := some (some items) }, nW := 0 }, none)
  else ({ s with files := { s.files with log := some none } }, some .typeError)

/-- `_flush_params` (_json_log.py:102-104, json_log_old.py:140-145). -/
def flushParams (s : St) (machine : Nat) : St := { s with files := { s.files with wf := some machine }, nP := 0 }

/-- the conditions of _json_log.py:81-90, json_log_old.py:119-128. -/
def wants (n : Nat) (every step oldStep : Int) : Except Err Bool :=
  if every = 0 then .error .zeroDivision else .ok (decide ((n : Int) % every = 0) || decide (step = oldStep - 1))

/-- the entry is stored (_json_log.py:77-79, json_log_old.py:115-117): the caller's dictionary gets the entry "Iteration". -/
def store (s : St) (step : Int) (a : Nat) : St :=
  { s with heap := Function.update s.heap a { s.heap a with iteration := some step }, out := s.out ++ [.ref a] }

/-- the end of `__call__` (_json_log.py:86-94, json_log_old.py:124-132). -/
def finish (s : St) (step : Int) (machine : Nat) : St × Option Err :=
  match wants s.nP s.saveEvery step s.oldStep with
  | .error e => (s, some e)
  | .ok p =>
    let s := if p then flushParams s machine else s
    ({ s with oldStep := step, nW := s.nW + 1, nP := s.nP + 1 }, none)

/-- `__call__` (_json_log.py:76-94, json_log_old.py:114-132). -/
def call (enc : Nat → Bool) (s : St) (step : Int) (a machine : Nat) : St × Option Err :=
  let s := store s step a
  match wants s.nW s.writeEvery step s.oldStep with
  | .error e => (s, some e)
  | .ok false => finish s step machine
  | .ok true =>
    match flushLog enc s with
    | (s, some e) => (s, some e)
    | (s, none) => finish s step machine

/-- `flush` (_json_log.py:106-115, json_log_old.py:147-156). -/
def flush (enc : Nat → Bool) (s : St) (machine : Option Nat) : St × Option Err :=
  match flushLog enc s with
  | (s, some e) => (s, some e)
  | (s, none) =>
    match machine with
    | none => (s, none)
    | some m => (flushParams s m, none)

/-- calls one after the other until one raises an exception
(netket/logging/json_log_old.py:114-156). -/
def run (enc : Nat → Bool) : St → List (Int × Nat × Nat) → St × Option Err
  | s, [] => (s, none)
  | s, (step, a, m) :: cs =>
    match call enc s step a m with
    | (s, some e) => (s, some e)
    | (s, none) => run enc s cs

/-- an object `orjson` does not encode by itself (netket/logging/json_log_old.py:34-49). -/
inductive Obj
  | toJson (v : Nat)
  | ndarray (ndim : Nat)
  | device (ndim : Nat)
  | cplx (z : ℂ)
  | other

/-- what is encoded instead (netket/logging/json_log_old.py:34-49). -/
inductive Enc
  | dict (v : Nat)
  | scalar
  | list
  | real (x : ℝ)

/-- `default` (json_log_old.py:34-49), with arrays of jax converted and handed to it again. -/
def encDefault : Obj → Except Err Enc
  | .toJson v => .ok (.dict v)
  | .ndarray n => if n = 0 then .ok .scalar else if n = 1 then .ok .list else .error .typeError
  | .device n => if n = 0 then .ok .scalar else if n = 1 then .ok .list else .error .typeError
  | .cplx z => .ok (.real z.re)
  | .other => .error .typeError

/-! ## Tensorboard -/

/-- a tree given to the logger; `stats` is an object with `to_compound` or `to_dict`, with its dictionary
(netket/logging/tensorboard.py:20-48; legacy/logging/_tensorboard.py:9-40). -/
inductive Tree
  | nothing
  | list (l : List Tree)
  | tuple (l : List Tree)
  | named (l : List (String × Tree))
  | dict (l : List (String × Tree))
  | stats (l : List (String × Tree))
  | cplx (re im : Nat)
  | number (v : Nat)
  | other (v : Nat)

/-- a value which is logged (netket/logging/tensorboard.py:20-48). -/
inductive Leaf
  | number (v : Nat)
  | other (v : Nat)
  deriving DecidableEq

mutual
/-- `tree_log` of netket/logging/tensorboard.py:20-60; paths are lists of components. -/
def treeLog (root : List String) : Tree → List (List String × Leaf)
  | .nothing => []
  | .list l => treeLogs root 0 l
  | .tuple l => treeLogs root 0 l
  | .named l => treeNamed root 0 l
  | .dict l => treeDict root l
  | .stats l => treeDict root l
  | .cplx re im => [(root ++ ["re"], .number re), (root ++ ["im"], .number im)]
  | .number v => [(root, .number v)]
  | .other v => [(root, .other v)]
/-- lists and tuples (tensorboard.py:34-36, 42-44): the index is the component. -/
def treeLogs (root : List String) (i : Nat) : List Tree → List (List String × Leaf)
  | [] => []
  | t :: l => treeLog (root ++ [toString i]) t ++ treeLogs root (i + 1) l
/-- named tuples are tuples (tensorboard.py:38-44). -/
def treeNamed (root : List String) (i : Nat) : List (String × Tree) → List (List String × Leaf)
  | [] => []
  | (_, t) :: l => treeLog (root ++ [toString i]) t ++ treeNamed root (i + 1) l
/-- dictionaries (tensorboard.py:46-48). -/
def treeDict (root : List String) : List (String × Tree) → List (List String × Leaf)
  | [] => []
  | (k, t) :: l => treeLog (root ++ [k]) t ++ treeDict root l
end

/-- `"/".join` (netket/logging/tensorboard.py:20-48). -/
def joinTag : List String → String
  | [] => ""
  | [s] => s
  | s :: l => s ++ "/" ++ joinTag l

/-- what `TBLog.__call__` writes (tensorboard.py:123-131): tags and numbers. -/
def tbWrites (t : Tree) : List (String × Nat) :=
  (treeLog [] t).filterMap fun p => match p.2 with
    | .number v => some (joinTag p.1, v)
    | _ => none

/-! ## Random numbers: netket/legacy/random.py -/

/-- `seed` (random.py:9-25): the seed of process `rank`; `own` is the number drawn on a process, `derive s r` entry `r` of the array drawn after seeding with `s`. -/
def seedOf (given : Option Nat) (own : Nat → Nat) (derive : Nat → Nat → Nat) (rank : Nat) : Nat :=
  let s := match given with
    | none => own rank
    | some s => s
  derive s rank

/-- `randint` (random.py:47-63) for a draw `x` from `[0, 1)`. -/
def randint (x : ℚ) (low high : Int) : Int := ⌊x * ((high - low : Int) : ℚ)⌋ + low

/-- `uniform` (random.py:28-44), for a draw `x` from `[0, 1)`. -/
def uniform (x low high : ℚ) : ℚ := low + (high - low) * x

end Verif.LegacyLog
