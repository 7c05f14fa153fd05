import Verif.Model.SymmLinear
import Mathlib.Analysis.SpecialFunctions.Complex.Circle

/-! Layers over a space group using a Fourier transform over the translations: netket/nn/symmetric_linear.py:152-353.

`jnp.fft.fftn(x, s=shape)` and `ifftn` are modelled by their defining sums over ℂ (one sum over the flattened cells; the phase is a
product over the axes). -/

namespace Verif.Symm
open Verif.Hilbert (Err)
open Finset

/-- number of cells, `np.product(shape)` (symmetric_linear.py:176, 286). -/
def cells (shape : List Nat) : Nat := shape.prod

/-- the phase of a Fourier transform over all axes of a row-major array: the product of exp(2πi·sign·k_d·t_d/L_d), the components of the
    flat indices being read off with `/` and `%` (`fftn`, `ifftn` in symmetric_linear.py:227-243, 330-346). -/
noncomputable def phase (sign : ℂ) : List Nat → Nat → Nat → ℂ
  | [], _, _ => 1
  | L :: Ls, k, t =>
    Complex.exp (sign * (2 * Real.pi * Complex.I) * ((k / cells Ls : Nat) : ℂ) * ((t / cells Ls : Nat) : ℂ) / (L : ℂ))
      * phase sign Ls (k % cells Ls) (t % cells Ls)

/-- `jnp.fft.fftn` over the cells (symmetric_linear.py:227, 229, 330, 332). -/
noncomputable def fftn (shape : List Nat) (x : Nat → ℂ) (k : Nat) : ℂ := ∑ t ∈ range (cells shape), x t * phase (-1) shape k t

/-- `jnp.fft.ifftn` over the cells (symmetric_linear.py:239, 342). -/
noncomputable def ifftn (shape : List Nat) (y : Nat → ℂ) (t : Nat) : ℂ :=
  (∑ k ∈ range (cells shape), y k * phase 1 shape k t) / (cells shape : ℂ)

/-- symmetric_linear.py:176-187: `mapping[p, s, t]`: the first columns of the group array, rows (cell, symmetry). -/
def symmMapping (sg : Nat → Nat → Nat) (nSymm : Nat) (p s t : Nat) : Nat := sg (t * nSymm + p) s

/-- symmetric_linear.py:195-255: `DenseSymmFFT.__call__`, entry (`f`, `q`) of the output.  `n_symm = len(sg) // n_cells` (177); input site
    index `t·sites_per_cell + s` (204-208); the product of transforms is contracted over the sites of a cell (233-235); the last axis of
    the result is (cell, symmetry) flattened (239-240).  Masks (219-220) multiply the kernel and are left out. -/
noncomputable def denseSymmFFT (shape : List Nat) (nSymm sitesPerCell : Nat) (sg : Nat → Nat → Nat) (bias : Option (Nat → ℂ))
    (w : Nat → Nat → ℂ) (x : Nat → ℂ) (f q : Nat) : ℂ :=
  addBias bias f (ifftn shape (fun k => ∑ s ∈ range sitesPerCell,
    fftn shape (fun t => x (t * sitesPerCell + s)) k * fftn shape (fun t => w f (symmMapping sg nSymm (q % nSymm) s t)) k) (q / nSymm))

/-- symmetric_linear.py:284-294: `mapping[p, q, t]`: the first rows of the product table, columns (cell, symmetry). -/
def equivMapping (pt : Nat → Nat → Nat) (nSymm : Nat) (p q t : Nat) : Nat := pt p (t * nSymm + q)

/-- symmetric_linear.py:302-353: `DenseEquivariantFFT.__call__`, entry (`o`, `q`): contraction over input features and symmetries (336-338). -/
noncomputable def denseEquivFFT (shape : List Nat) (inF nSymm : Nat) (pt : Nat → Nat → Nat) (bias : Option (Nat → ℂ))
    (w : Nat → Nat → Nat → ℂ) (x : Nat → Nat → ℂ) (o q : Nat) : ℂ :=
  addBias bias o (ifftn shape (fun k => ∑ i ∈ range inF, ∑ p ∈ range nSymm,
    fftn shape (fun t => x i (t * nSymm + p)) k * fftn shape (fun t => w o i (equivMapping pt nSymm p (q % nSymm) t)) k) (q / nSymm))

end Verif.Symm
