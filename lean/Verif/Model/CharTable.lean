import Verif.Model.Group
import Verif.Model.Lattice
import Mathlib.Analysis.Complex.Norm
import Mathlib.Data.Matrix.Mul
import Mathlib.Algebra.BigOperators.Fin

/-! Model of the character tables of `netket/utils/group/_group.py`.  Arithmetic is exact; `np.linalg.eig` is an argument (its columns
    `V`), and so is the random vector `a`.  `none` is a table with entries NaN. -/

namespace Verif.CharTab
open Verif.Grp Finset

noncomputable section

/-- number of conjugacy classes (_group.py:193). -/
def numClasses (T : List (List Nat)) : Nat := (conjugacyClasses T).1.length

/-- `classes[c, i]` (_group.py:193) as a number. -/
def member (T : List (List Nat)) (c i : Nat) : ℂ := ((((conjugacyClasses T).1.getD c []).getD i 0 : Int) : ℂ)

/-- _group.py:194: `class_sizes`. -/
def classSize (T : List (List Nat)) (c : Nat) : ℂ := ∑ i ∈ range T.length, member T c i

/-- _group.py:206-209: `class_matrix` for the vector `a` (206: `random(len(self), seed=0)`). -/
def classMatrix (T : List (List Nat)) (a : Nat → ℝ) : Matrix (Fin (numClasses T)) (Fin (numClasses T)) ℂ := fun R S =>
  (∑ i ∈ range T.length, ∑ j ∈ range T.length, member T R i * (a (entry T i j) : ℂ) * member T S j) / classSize T S

/-- _group.py:215, 218-219: row of `table` for one eigenvector, divided by the class sizes and by its norm. -/
def unitRow (T : List (List Nat)) (v : Fin (numClasses T) → ℂ) : List ℂ :=
  let t := fun c : Fin (numClasses T) => v c / classSize T c
  let norm := Real.sqrt (∑ c, ‖t c‖ ^ 2 * (classSize T c).re)
  (List.finRange (numClasses T)).map fun c => t c / (norm : ℂ)

/-- _group.py:352-353: `_cplx_sign`; NaN for zero. -/
def cplxSign (z : ℂ) : Option ℂ := if z = 0 then none else some (z / (‖z‖ : ℂ))

/-- _group.py:215-221: row of `table` before it is sorted. -/
def rowOf (T : List (List Nat)) (v : Fin (numClasses T) → ℂ) : Option (List ℂ) :=
  match cplxSign ((unitRow T v).headD 0) with
  | none => none
  | some s => some ((unitRow T v).map fun z => z / s * (Real.sqrt T.length : ℂ))

/-- _group.py:224-226: row of `sorting_table`: real parts, then imaginary parts, all but the first negated, in bins. -/
def sortKey (row : List ℂ) : List Int :=
  match row.map Complex.re ++ row.map Complex.im with
  | [] => []
  | x :: xs => Lat.comparable x :: xs.map fun y => Lat.comparable (-y)

/-- float.py:87-102: what `prune_zeros` does to one entry (whether the array returned has a complex type is not modelled). -/
def prune (z : ℂ) : ℂ := ⟨if |z.re| ≤ 1 / 10 ^ 8 then 0 else z.re, if |z.im| ≤ 1 / 10 ^ 8 then 0 else z.im⟩

/-- _group.py:223-230: the table sorted, without repetitions, and cleaned. -/
def sortTable (table : List (List ℂ)) : List (List ℂ) :=
  ((uniqueIndex (table.map sortKey)).filterMap fun i => table[i]?).map fun row => row.map prune

/-- _group.py:182-232: `character_table_by_class`; `V j` is column `j` of the eigenvectors. -/
def characterTableByClass (T : List (List Nat)) (V : Fin (numClasses T) → Fin (numClasses T) → ℂ) : Option (List (List ℂ)) :=
  match (List.finRange (numClasses T)).mapM fun j => rowOf T (V j) with
  | none => none
  | some table => some (sortTable table)

/-- _group.py:234-246: `character_table`. -/
def characterTable (T : List (List Nat)) (V : Fin (numClasses T) → Fin (numClasses T) → ℂ) : Option (List (List ℂ)) :=
  match characterTableByClass T V with
  | none => none
  | some CT => some (CT.map fun row => (conjugacyClasses T).2.2.map fun c => row.getD c 0)

/-- _group.py:248-263: `character_table_readable`: sizes and representatives of the classes (the text is built from these), and the
    table. -/
def characterTableReadable (T : List (List Nat)) (V : Fin (numClasses T) → Fin (numClasses T) → ℂ) :
    List (Int × Nat) × Option (List (List ℂ)) :=
  (((conjugacyClasses T).1.map List.sum).zip (conjugacyClasses T).2.1, characterTableByClass T V)

end

end Verif.CharTab
