import Verif.Model.LegacyJax
import Verif.Spec.LegacyJax
import Mathlib.Algebra.Order.Floor.Ring
import Mathlib.Data.Rat.Floor
import Mathlib.Tactic.NormNum
import Mathlib.Tactic.FieldSimp
import Mathlib.Tactic.Linarith
import Mathlib.Tactic.Positivity
import Mathlib.Analysis.SpecialFunctions.Exp

/-! C206, C207: the periodic matrix product states of `netket.legacy`. -/

namespace Verif.LegacyJax
open Verif.Hilbert (Err)
open Verif.LegacyJaxSpec
open Finset

/-! ## Local states -/

theorem spacings_even (b d : ℚ) (k m : Nat) :
    spacings ((List.range' m k).map fun i : Nat => b + (i : ℚ) * d) = List.replicate (k - 1) d := by
  induction k generalizing m with
  | zero => rfl
  | succ k ih =>
    cases k with
    | zero => rfl
    | succ k =>
      have e := ih (m + 1)
      rw [List.range'_succ, List.map_cons]
      rw [List.range'_succ, List.map_cons] at e ⊢
      unfold spacings
      rw [e]
      simp only [Nat.add_sub_cancel]
      rw [List.replicate_succ]
      congr 1
      push_cast
      ring

theorem foldl_max_replicate (d : ℚ) (k : Nat) : (List.replicate k d).foldl max d = d ∧ (List.replicate k d).foldl min d = d := by
  induction k with
  | zero => exact ⟨rfl, rfl⟩
  | succ k ih => rw [List.replicate_succ, List.foldl_cons, List.foldl_cons, max_self, min_self]; exact ih

theorem foldl_min_eq (l : List ℚ) (a : ℚ) (h : ∀ x ∈ l, a ≤ x) : l.foldl min a = a := by
  induction l with
  | nil => rfl
  | cons x r ih =>
    rw [List.foldl_cons, min_eq_left (h x (by simp))]
    exact ih fun y hy => h y (by simp [hy])

/-- C206: evenly spaced local states, in increasing order, are recognised; the spacing and the smallest state are found, and the local state
    number `i` selects tensor number `i`. -/
theorem C206_mps_index (b d : ℚ) (hd : 0 < d) (k : Nat) (hk : 2 ≤ k) :
    localIndexing ((List.range k).map fun i : Nat => b + (i : ℚ) * d) = .ok (d, b)
    ∧ ∀ i < k, jaxIndex k (toIndex d b (b + (i : ℚ) * d)) = i := by
  constructor
  · obtain ⟨k, rfl⟩ : ∃ j, k = j + 2 := ⟨k - 2, by omega⟩
    have e := spacings_even b d (k + 2) 0
    rw [← List.range_eq_range'] at e
    have hl : (List.range (k + 2)).map (fun i : Nat => b + (i : ℚ) * d) = (b + ((0 : Nat) : ℚ) * d) :: (List.range' 1 (k + 1)).map fun i : Nat => b + (i : ℚ) * d := by
      rw [List.range_eq_range', List.range'_succ, List.map_cons]
    unfold localIndexing
    rw [e, hl, show k + 2 - 1 = k + 1 from rfl, List.replicate_succ]
    simp only
    rw [if_pos (by rw [(foldl_max_replicate d k).1, (foldl_max_replicate d k).2])]
    congr 2
    rw [foldl_min_eq]
    · simp
    · intro x hx
      obtain ⟨i, hi, rfl⟩ := List.mem_map.1 hx
      have : 0 ≤ (i : ℚ) * d := by positivity
      simp only [Nat.cast_zero, zero_mul, add_zero]
      linarith
  · intro i hi
    have e : toIndex d b (b + (i : ℚ) * d) = (i : Int) := by
      unfold toIndex
      have : (b + (i : ℚ) * d - b) / d = (i : ℚ) := by field_simp; ring
      simp only [this]
      rw [if_pos (by positivity)]
      exact_mod_cast Rat.floor_intCast (i : Int)
    rw [e]
    unfold jaxIndex
    simp only
    rw [if_neg (by omega), if_neg (by omega)]
    omega

/-- spins: local states -1 and 1. -/
example : localIndexing [-1, 1] = .ok (2, -1) := by decide +kernel

theorem foldl_max_ge (l : List ℚ) (a : ℚ) : a ≤ l.foldl max a ∧ ∀ x ∈ l, x ≤ l.foldl max a := by
  induction l generalizing a with
  | nil => exact ⟨le_rfl, by simp⟩
  | cons y r ih =>
    rw [List.foldl_cons]
    refine ⟨(le_max_left a y).trans (ih (max a y)).1, fun x hx => ?_⟩
    rcases List.mem_cons.1 hx with rfl | hx
    · exact (le_max_right a _).trans (ih _).1
    · exact (ih _).2 x hx

theorem foldl_min_le (l : List ℚ) (a : ℚ) : l.foldl min a ≤ a ∧ ∀ x ∈ l, l.foldl min a ≤ x := by
  induction l generalizing a with
  | nil => exact ⟨le_rfl, by simp⟩
  | cons y r ih =>
    rw [List.foldl_cons]
    refine ⟨(ih (min a y)).1.trans (min_le_left a y), fun x hx => ?_⟩
    rcases List.mem_cons.1 hx with rfl | hx
    · exact (ih _).1.trans (min_le_right a _)
    · exact (ih _).2 x hx

/-- C206: local states whose spacings are not all equal are refused with AssertionError. -/
theorem C206_mps_uneven (states : List ℚ) (x y : ℚ) (hx : x ∈ spacings states) (hy : y ∈ spacings states) (h : x ≠ y) :
    localIndexing states = .error .assertionError := by
  unfold localIndexing
  cases hs : spacings states with
  | nil => rw [hs] at hx; simp at hx
  | cons d ds =>
    cases states with
    | nil => simp [spacings] at hs
    | cons s r =>
      simp only
      rw [if_neg]
      intro e
      rw [hs] at hx hy
      have bound : ∀ z ∈ d :: ds, ds.foldl min d ≤ z ∧ z ≤ ds.foldl max d := by
        intro z hz
        rcases List.mem_cons.1 hz with rfl | hz
        · exact ⟨(foldl_min_le ds z).1, (foldl_max_ge ds z).1⟩
        · exact ⟨(foldl_min_le ds d).2 z hz, (foldl_max_ge ds d).2 z hz⟩
      have h1 := bound x hx
      have h2 := bound y hy
      rw [e] at h1 h2
      exact h (le_antisymm (h1.2.trans h2.1) (h2.2.trans h1.1))

example : (1 : ℚ) ∈ spacings [0, 1, 3] ∧ (2 : ℚ) ∈ spacings [0, 1, 3] ∧ (1 : ℚ) ≠ 2 := by decide +kernel

/-- C206: the period has to be a positive divisor of the number of sites; by default it is the number of sites. -/
theorem C206_mps_period (L : Nat) (hL : 0 < L) :
    unitCell L none = .ok L
    ∧ (∀ p : Nat, 0 < p → p ∣ L → unitCell L (some p) = .ok p)
    ∧ (∀ p : Nat, 0 < p → ¬ p ∣ L → unitCell L (some p) = .error .assertionError)
    ∧ ∀ p : Int, p < 0 → unitCell L (some p) = .error .assertionError := by
  refine ⟨?_, fun p hp h => ?_, fun p hp h => ?_, fun p hp => ?_⟩
  · unfold unitCell; simp; omega
  · have h1 : ((L : Int) % (p : Int) = 0) := Int.emod_eq_zero_of_dvd (Int.natCast_dvd_natCast.2 h)
    unfold unitCell
    simp only
    rw [if_neg (by omega), if_pos ⟨h1, by omega⟩]
    simp
  · have h1 : ¬ ((L : Int) % (p : Int) = 0) := fun e => h (Int.natCast_dvd_natCast.1 (Int.dvd_of_emod_eq_zero e))
    unfold unitCell
    simp only
    rw [if_neg (by omega), if_neg (fun e => h1 e.1)]
  · unfold unitCell
    simp only
    rw [if_neg (by omega), if_neg (fun e => absurd e.2 (by omega))]

example : unitCell 6 (some 3) = .ok 3 ∧ unitCell 6 (some 4) = .error .assertionError := by decide

/-! ## Value -/

/-- the matrix with the entries of an array. -/
def toMatrix (D : Nat) (A : Nat → Nat → ℂ) : Matrix (Fin D) (Fin D) ℂ := fun i j => A i j

theorem toMatrix_mul (D : Nat) (A B : Nat → Nat → ℂ) : toMatrix D (matMul D A B) = toMatrix D A * toMatrix D B := by
  ext i j
  rw [Matrix.mul_apply]
  show ∑ k ∈ range D, A i k * B k j = _
  rw [← Fin.sum_univ_eq_sum_range (fun k => A i k * B k j) D]
  rfl

theorem toMatrix_foldl (D : Nat) (l : List (Nat → Nat → ℂ)) (e : Nat → Nat → ℂ) :
    toMatrix D (l.foldl (matMul D) e) = toMatrix D e * (l.map (toMatrix D)).prod := by
  induction l generalizing e with
  | nil => simp
  | cons a r ih => rw [List.foldl_cons, ih, toMatrix_mul, List.map_cons, List.prod_cons, Matrix.mul_assoc]

theorem traceMps_eq (D : Nat) (l : List (Nat → Nat → ℂ)) : traceMps D l = Matrix.trace (l.map (toMatrix D)).prod := by
  unfold traceMps
  simp only
  have h1 : toMatrix D (fun i j => if i = j then (1 : ℂ) else 0) = 1 := by
    ext i j
    simp [toMatrix, Matrix.one_apply, Fin.ext_iff]
  have h2 := toMatrix_foldl D l fun i j => if i = j then (1 : ℂ) else 0
  rw [h1, Matrix.one_mul] at h2
  rw [← h2, Matrix.trace, ← Fin.sum_univ_eq_sum_range fun i => l.foldl (matMul D) (fun i j => if i = j then (1 : ℂ) else 0) i i]
  rfl

/-- the tensors of the unit cell as matrices, repeated along the chain. -/
noncomputable def chain (p D : Nat) (params : Nat → Nat → Nat → Nat → ℂ) (i s : Nat) : Matrix (Fin D) (Fin D) ℂ := toMatrix D (params (i % p) s)

/-- C206: the network of `MPSPeriodic` computes the trace of the product of the matrices selected by the local states, the tensor of site `i`
    being number `i` modulo the period of the unit cell. -/
theorem C206_mps_value (L p d D : Nat) (spacing bias : ℚ) (h : 0 < spacing) (params : Nat → Nat → Nat → Nat → ℂ) (s : Nat → Nat) (hs : ∀ i < L, s i < d) :
    mpsLogVal L p d D spacing bias params (fun i => bias + (s i : ℚ) * spacing) = mpsAmplitude L (chain p D params) s := by
  unfold mpsLogVal mpsAmplitude
  rw [traceMps_eq, List.map_map]
  congr 2
  refine List.map_congr_left fun i hi => ?_
  have hi' := List.mem_range.1 hi
  have hd : 0 < d := Nat.lt_of_le_of_lt (Nat.zero_le _) (hs i hi')
  have e : jaxIndex d (toIndex spacing bias (bias + (s i : ℚ) * spacing)) = s i := by
    have e : toIndex spacing bias (bias + (s i : ℚ) * spacing) = (s i : Int) := by
      unfold toIndex
      have : (bias + (s i : ℚ) * spacing - bias) / spacing = (s i : ℚ) := by field_simp; ring
      simp only [this]
      rw [if_pos (by positivity)]
      exact_mod_cast Rat.floor_intCast (s i : Int)
    rw [e]
    unfold jaxIndex
    simp only
    rw [if_neg (by omega), if_neg (by omega)]
    have := hs i hi'
    omega
  simp only [Function.comp, e, tile, chain]

/-- a chain of four spins with period two. -/
example : (0 : ℚ) < 2 ∧ ∀ i < 4, (fun i => i % 2) i < 2 := ⟨by norm_num, fun i _ => Nat.mod_lt _ (by norm_num)⟩

theorem range_shift (L p : Nat) (hp : p ≤ L) {α : Type} (f : Nat → α) (hper : ∀ i, f (i + L) = f i) :
    (List.range L).map (fun i => f (i + p)) = ((List.range L).map f).drop p ++ ((List.range L).map f).take p := by
  refine List.ext_getElem? fun i => ?_
  by_cases hi : i < L
  · rw [List.getElem?_map, List.getElem?_range hi]
    by_cases h2 : i < L - p
    · rw [List.getElem?_append_left (by simp; omega), List.getElem?_drop, List.getElem?_map, List.getElem?_range (by omega)]
      simp [Nat.add_comm]
    · rw [List.getElem?_append_right (by simp; omega), List.getElem?_take_of_lt (by simp; omega), List.getElem?_map,
        List.getElem?_range (by simp; omega)]
      have := hper (i - (L - p))
      simp only [List.length_drop, List.length_map, List.length_range, Option.map_some]
      rw [← this]
      congr 2
      omega
  · rw [List.getElem?_eq_none (by simp; omega), List.getElem?_eq_none (by simp; omega)]

/-- C206: translation by the period of the unit cell does not change the value. -/
theorem C206_mps_translation (L p d D : Nat) (hL : p ∣ L) (hL0 : 0 < L) (spacing bias : ℚ) (params : Nat → Nat → Nat → Nat → ℂ)
    (x : Nat → ℚ) :
    mpsLogVal L p d D spacing bias params (fun i => x ((i + p) % L)) = mpsLogVal L p d D spacing bias params x := by
  have e : ∀ y : Nat → ℚ, mpsLogVal L p d D spacing bias params y
      = Matrix.trace ((List.range L).map fun i => toMatrix D (params (i % p) (jaxIndex d (toIndex spacing bias (y (i % L)))))).prod := by
    intro y
    unfold mpsLogVal
    rw [traceMps_eq, List.map_map]
    congr 2
    refine List.map_congr_left fun i hi => ?_
    simp only [Function.comp, tile]
    rw [Nat.mod_eq_of_lt (List.mem_range.1 hi)]
  rw [e, e]
  set f : Nat → Matrix (Fin D) (Fin D) ℂ := fun i => toMatrix D (params (i % p) (jaxIndex d (toIndex spacing bias (x (i % L))))) with hf
  have h1 : (List.range L).map (fun i => toMatrix D (params (i % p) (jaxIndex d (toIndex spacing bias (x ((i % L + p) % L))))))
      = (List.range L).map fun i => f (i + p) := by
    refine List.map_congr_left fun i _ => ?_
    simp only [hf, Nat.add_mod_right, Nat.mod_add_mod]
  have hper : ∀ i, f (i + L) = f i := by
    intro i
    obtain ⟨c, rfl⟩ := hL
    simp only [hf]
    rw [Nat.add_mul_mod_self_left, Nat.add_mod_right]
  rw [h1, range_shift L p (Nat.le_of_dvd hL0 hL) f hper, List.prod_append, Matrix.trace_mul_comm, ← List.prod_append, List.take_append_drop]

example : 2 ∣ 6 ∧ 0 < 6 := by decide

theorem prod_list_range (f : Nat → ℂ) (L : Nat) : ((List.range L).map f).prod = ∏ i ∈ range L, f i := by
  induction L with
  | zero => simp
  | succ L ih => rw [List.range_succ, List.map_append, List.prod_append, ih, prod_range_succ]; simp

/-- C206: with `diag=True` the value is the sum over the bond index of the products of the diagonal entries. -/
theorem C206_mps_diag (L p d D : Nat) (spacing bias : ℚ) (params : Nat → Nat → Nat → ℂ) (x : Nat → ℚ) :
    mpsLogVal L p d D spacing bias (expandDiag params) x
      = ∑ k ∈ range D, ∏ i ∈ range L, params (i % p) (jaxIndex d (toIndex spacing bias (x i))) k := by
  unfold mpsLogVal
  rw [traceMps_eq, List.map_map]
  have hd : ∀ i s, toMatrix D (expandDiag params i s) = Matrix.diagonal fun k : Fin D => params i s k := by
    intro i s
    ext a b
    simp only [toMatrix, expandDiag, Matrix.diagonal_apply, Fin.ext_iff]
    split_ifs <;> simp
  have hp : ∀ l : List Nat, (l.map fun i => toMatrix D (expandDiag params (i % p) (jaxIndex d (toIndex spacing bias (x i))))).prod
      = Matrix.diagonal fun k : Fin D => (l.map fun i => params (i % p) (jaxIndex d (toIndex spacing bias (x i))) k).prod := by
    intro l
    induction l with
    | nil => simp
    | cons a r ih => rw [List.map_cons, List.prod_cons, ih, hd, Matrix.diagonal_mul_diagonal]; simp
  have := hp (List.range L)
  simp only [Function.comp_def, tile]
  rw [this, Matrix.trace_diagonal, Fin.sum_univ_eq_sum_range (fun k => ((List.range L).map fun i => params (i % p) (jaxIndex d (toIndex spacing bias (x i))) k).prod) D]
  refine sum_congr rfl fun k _ => ?_
  exact prod_list_range _ _

/-- C207: the amplitude of a machine is the exponential of `log_val`, and `log_val` of `MPSPeriodic` is the trace itself. So the amplitude is
    never the documented one where this is real, for instance for all real tensors, and it does not vanish where the documented one does. -/
theorem C207_mps_log_refuted (L p d D : Nat) (spacing bias : ℚ) (h : 0 < spacing) (params : Nat → Nat → Nat → Nat → ℂ) (s : Nat → Nat)
    (hs : ∀ i < L, s i < d) :
    Complex.exp (mpsLogVal L p d D spacing bias params (fun i => bias + (s i : ℚ) * spacing)) = Complex.exp (mpsAmplitude L (chain p D params) s)
    ∧ ((mpsAmplitude L (chain p D params) s).im = 0 →
        Complex.exp (mpsLogVal L p d D spacing bias params (fun i => bias + (s i : ℚ) * spacing)) ≠ mpsAmplitude L (chain p D params) s)
    ∧ Complex.exp (mpsLogVal L p d D spacing bias params (fun i => bias + (s i : ℚ) * spacing)) ≠ 0 := by
  have e := C206_mps_value L p d D spacing bias h params s hs
  refine ⟨by rw [e], fun him heq => ?_, Complex.exp_ne_zero _⟩
  rw [e] at heq
  set z := mpsAmplitude L (chain p D params) s
  have hz : z = ((z.re : ℝ) : ℂ) := Complex.ext (by simp) (by simpa using him)
  rw [hz, ← Complex.ofReal_exp] at heq
  have := Complex.ofReal_injective heq
  have h1 := Real.add_one_le_exp z.re
  linarith

end Verif.LegacyJax
