import Verif.Model.DiscreteHilbert

/-! Models of the constrained samplers `random_state` in `netket/hilbert/random/{fock,spin}.py`.
Random numbers are explicit arguments. -/

namespace Verif.RandomState
open Verif.Hilbert

/-- the loop of random/fock.py:52-59 and random/spin.py:86-93 (the same code with different increment
    and fullness test): `count` iterations, each draws `s = rgen.integers(0, ss)` (the `k`-th draw is
    `draw k ss`), increments the site and removes it from the list when full.
    `rgen.integers(0, 0)` raises ValueError. -/
def fillLoop (inc : Int) (full : Int → Bool) (draw : Nat → Nat → Nat) :
    Nat → Nat → List Int → List Nat → Except Err (List Int)
  | 0, _, out, _ => .ok out
  | n + 1, k, out, sites =>
    if sites.length = 0 then .error .valueError
    else
      let s := draw k sites.length
      match sites[s]? with
      | none => .error .indexError
      | some site =>
        match out[site]? with
        | none => .error .indexError
        | some v =>
          let v' := v + inc
          let out' := out.set site v'
          fillLoop inc full draw n (k + 1) out' (if full v' then sites.eraseIdx s else sites)

/-- random/fock.py:44-61, one row. -/
def fockConstrained (N nmax nparticles : Nat) (draw : Nat → Nat → Nat) : Except Err (List Int) :=
  fillLoop 1 (fun v => v == nmax) draw nparticles 0 (List.replicate N 0) (List.range N)

/-- random/spin.py:78-95, one row; `t = 2 s`, `m = 2 total_sz` (both integers);
    `round(s*size + total_sz) = (t*N + m)/2`, exact because of the parity checks of spin.py:38-51. -/
def spinConstrained (N t : Nat) (m : Int) (draw : Nat → Nat → Nat) : Except Err (List Int) :=
  fillLoop 2 (fun v => decide (v > (t : Int) - 1)) draw (((t : Int) * N + m) / 2).toNat 0
    (List.replicate N (-(t : Int))) (List.range N)

/-- random/spin.py:39-56: for spin 1/2, `nup` ones then `ndown` minus ones, before shuffling. -/
def spinHalfUnshuffled (N : Nat) (m : Int) : List Int :=
  List.replicate (((N : Int) + m) / 2).toNat 1 ++ List.replicate (((N : Int) - m) / 2).toNat (-1)

/-- spin.py:26-51 (`_check_total_sz`): `t = 2 s`, `m = round(2 total_sz)`. -/
def checkTotalSz (t : Nat) (m : Int) (N : Nat) : Bool :=
  if m.natAbs > N * t then false
  else if (t + 1) % 2 = 0 then ((N : Int) + m) % 2 = 0
  else m % 2 = 0

/-- fock.py:69-81: `n_particles > 0` and `n_max * N >= n_particles`. -/
def checkParticles (nmax N nparticles : Nat) : Bool :=
  decide (0 < nparticles) && decide (nparticles ≤ nmax * N)

/-- random/spin.py:30-34: unconstrained, `rs` in `0..t`. -/
def spinUnconstrained (t : Nat) (rs : List Nat) : List Int := rs.map fun r : Nat => (r : Int) * 2 - t

end Verif.RandomState
