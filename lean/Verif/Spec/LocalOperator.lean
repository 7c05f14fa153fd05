import Mathlib.Data.Fintype.Pi
import Verif.Model.LocalOperator

/-! Specification used by the properties of `LocalOperator`: what matrix a sum of local terms is.
Independent of the tables and index arithmetic of the code. -/

namespace Verif.LocalOp

variable {K : Type} [CommRing K] {α : Type} [LinearOrder α] {N : Nat}

/-- configurations of the Hilbert space with local states `hi`. -/
def Valid (hi : Fin N → List α) (x : Fin N → α) : Prop := ∀ s, x s ∈ hi s

/-- the basis of the Hilbert space. -/
def basisStates (hi : Fin N → List α) : Finset (Fin N → α) :=
  Fintype.piFinset fun s => (hi s).toFinset

/-- position of the local configuration of `x` on the listed sites in the lexicographic order of the
    product of their local spaces (first listed site most significant), the documented row/column order
    of a local matrix. -/
def lexIdx (hi : Fin N → List α) (sites : List (Fin N)) (x : Fin N → α) : Nat :=
  Verif.Radix.enc (sites.map fun s => (hi s).length) (sites.map fun s => (hi s).idxOf (x s))

/-- matrix element `⟨x| M ⊗ 1 |x'⟩` of a local matrix acting on the listed sites. -/
def embed (hi : Fin N → List α) (m : Nat → Nat → K) (sites : List (Fin N)) (x x' : Fin N → α) : K :=
  if ∀ s, s ∉ sites → x s = x' s then m (lexIdx hi sites x) (lexIdx hi sites x') else 0

/-- the matrix represented by `op.constant`, `op.operators`, `op.acting_on`. -/
def matrixOf (hi : Fin N → List α) (op : LOp K α N) (x x' : Fin N → α) : K :=
  (if x = x' then op.constant else 0)
    + (op.terms.map fun t => embed hi t.mat.f t.acting x x').sum

/-- the matrix meant by a user's list of local matrices and sites. -/
def matrixOfList (hi : Fin N → List α) (c : K) (ops : List (Mat K × List (Fin N)))
    (x x' : Fin N → α) : K :=
  (if x = x' then c else 0) + (ops.map fun p => embed hi p.1.f p.2 x x').sum

/-- matrix product over the basis of the space. -/
def matProd (hi : Fin N → List α) (a b : (Fin N → α) → (Fin N → α) → K) (x x' : Fin N → α) : K :=
  ∑ y ∈ basisStates hi, a x y * b y x'

/-- total matrix element at `x'` of a list of connected elements. -/
def melAt (l : List ((Fin N → α) × K)) (x' : Fin N → α) : K :=
  (l.map fun p => if p.1 = x' then p.2 else 0).sum

/-- local states are strictly increasing (what `states_at_index` returns for every NetKet space). -/
def SortedSpace (hi : Fin N → List α) : Prop := ∀ s, (hi s).Pairwise (· < ·)

end Verif.LocalOp
