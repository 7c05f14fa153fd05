import Verif.Model.CharTable

/-! Model of `irrep_matrices` of `netket/utils/group/_group.py`.  Arithmetic is exact; the results of `np.linalg.eigh` (eigenvalues `ev`
    and columns of `v`) and the random vectors are arguments. -/

namespace Verif.CharTab
open Verif.Grp Finset
open Verif.Hilbert (Err)

noncomputable section

/-- _group.py:278: `true_product_table = product_table[inverse]`. -/
def trueTable (T : List (List Nat)) (inv : List Nat) (g h : Nat) : Nat := entry T (inv.getD g 0) h

/-- _group.py:279: `inverted_product_table = true_product_table[:, inverse]`. -/
def invertedTable (T : List (List Nat)) (inv : List Nat) (g h : Nat) : Nat := trueTable T inv g (inv.getD h 0)

/-- _group.py:281-286: the matrix passed to `eigh`. -/
def invariantMatrix (T : List (List Nat)) (inv : List Nat) (e : Nat → ℂ) (g h : Nat) : ℂ :=
  e (invertedTable T inv g h) + (starRingEnd ℂ) (e (invertedTable T inv h g))

/-- what `invariant_subspaces` (_group.py:280-304) computes with. -/
structure Eigen where
  /-- eigenvalues (291) -/
  ev : Nat → ℝ
  /-- eigenvectors (291): `v g j` is component `g` of eigenvector `j` -/
  v : Nat → Nat → ℂ
  /-- the random vector (301) -/
  s : Nat → ℝ

/-- _group.py:294: first index of every bin of eigenvalues. -/
def startingIdx (n : Nat) (ev : Nat → ℝ) : List Nat :=
  uniqueIndex ((List.range n).map fun i : Nat => [Lat.comparable (ev i)])

/-- _group.py:300-303: `proj` for one row `chi` of the character table and one eigenvector `x`. -/
def projOf (T : List (List Nat)) (inv : List Nat) (s : Nat → ℝ) (chi : List ℂ) (x : Nat → ℂ) : ℂ :=
  ∑ k ∈ range T.length, (∑ g ∈ range T.length, (starRingEnd ℂ) (chi.getD g 0) * (s (invertedTable T inv g k) : ℂ)) * x k

/-- _group.py:310-316: Frobenius–Schur indicator of one row of the character table. -/
def frobenius (T : List (List Nat)) (inv : List Nat) (chi : List ℂ) : Int :=
  Lat.rint ((∑ g ∈ range T.length, chi.getD (trueTable T inv g g) 0).re / (T.length : ℝ))

/-- _group.py:304, 330-334: limits of the eigenspaces, `idx[b], idx[b+1]`. -/
def limits (n : Nat) (ev : Nat → ℝ) : List (Nat × Nat) := (startingIdx n ev).zip ((startingIdx n ev).tail ++ [n])

/-- _group.py:331-334: the first eigenspace with a nonzero projection (`np.isclose(x, 0)` is `|x| ≤ 1e-8`). -/
def firstSpace (T : List (List Nat)) (inv : List Nat) (E : Eigen) (chi : List ℂ) : Except Err (Nat × Nat) := by
  classical
  exact match (limits T.length E.ev).filter fun b => decide (¬‖projOf T inv E.s chi fun g => E.v g b.1‖ ≤ 1 / 10 ^ 8) with
  | [] => .error .indexError
  | b :: _ => .ok b

/-- _group.py:336: entry of the matrix of element `h`. -/
def irrepEntry (T : List (List Nat)) (inv : List Nat) (v : Nat → Nat → ℂ) (lo : Nat) (h i j : Nat) : ℂ :=
  ∑ g ∈ range T.length, (starRingEnd ℂ) (v g (lo + i)) * v (trueTable T inv g h) (lo + j)

/-- a list of matrices of one size (netket/utils/group/_group.py:266-349). -/
structure Irrep where
  dim : Nat
  mat : Nat → Nat → Nat → ℂ

/-- _group.py:329-336: the matrices of one irrep. -/
def irrepOf (T : List (List Nat)) (inv : List Nat) (real cplx : Eigen) (chi : List ℂ) : Except Err Irrep :=
  let E := if frobenius T inv chi = 1 then real else cplx
  match firstSpace T inv E chi with
  | .error e => .error e
  | .ok (lo, hi) => .ok ⟨hi - lo, irrepEntry T inv E.v lo⟩

/-- _group.py:266-349: `irrep_matrices` for the character table `CT`.  (`real` and `cplx` are used only if some indicator is, or is
    not, one; 318-325 compute them just then.) -/
def irrepMatrices (T : List (List Nat)) (inv : List Nat) (real cplx : Eigen) : List (List ℂ) → Except Err (List Irrep)
  | [] => .ok []
  | chi :: rest =>
    match irrepOf T inv real cplx chi with
    | .error e => .error e
    | .ok D =>
      match irrepMatrices T inv real cplx rest with
      | .error e => .error e
      | .ok Ds => .ok (D :: Ds)

end

end Verif.CharTab
