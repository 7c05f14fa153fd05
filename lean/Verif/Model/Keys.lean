import Mathlib.Data.List.Basic

/-!
`PRNGSeq` (netket/jax/utils.py:361-389).

Random keys are ideal: `jax.random.split(key, num)[i]` is a fresh key, different for different `key`, `num`
or `i`; the key with which a sequence starts is `base`.
-/

namespace Verif.Keys

/-- keys (netket/jax/utils.py:377, 387: results of `jax.random.split`). -/
inductive Key where
  /-- the key given to the constructor -/
  | base
  /-- `jax.random.split(parent, num)[i]` -/
  | split (parent : Key) (num i : Nat)
  deriving DecidableEq

/-- calls on a `PRNGSeq` (netket/jax/utils.py:376-389). -/
inductive Op where
  /-- `next()` -/
  | next
  /-- `take(num)` -/
  | take (num : Nat)

/-- one call: new `_current` and the keys handed out (netket/jax/utils.py:376-389). -/
def step (cur : Key) : Op → Key × List Key
  | .next => (.split cur 1 0, [.split cur 1 0])
  | .take num => (.split cur (num + 1) num, (List.range num).map fun i => .split cur (num + 1) i)

/-- a sequence of calls: all keys handed out, in order (netket/jax/utils.py:361-389). -/
def run (cur : Key) : List Op → List Key
  | [] => []
  | op :: ops => (step cur op).2 ++ run (step cur op).1 ops

end Verif.Keys
