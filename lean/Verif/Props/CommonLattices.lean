import Verif.Lemmas.NearestGraph
import Mathlib.Tactic.IntervalCases

/-! Theorems on the lattices BCC, FCC, Diamond, Pyrochlore, Triangular, Honeycomb and Kagome (C159). -/

set_option linter.unusedSectionVars false
set_option linter.unusedVariables false

namespace Verif.CommonLat
open Verif.Lat
open Verif.Hilbert (Err)

/-! ## The quadratic forms -/

theorem foldl_max_ge {α : Type} (f : α → ℝ) (l : List α) : ∀ m : ℝ, m ≤ l.foldl (fun m i => max m (f i)) m
    ∧ ∀ i ∈ l, f i ≤ l.foldl (fun m i => max m (f i)) m := by
  induction l with
  | nil => intro m; exact ⟨le_refl _, by simp⟩
  | cons x xs ih =>
    intro m
    obtain ⟨h1, h2⟩ := ih (max m (f x))
    refine ⟨le_trans (le_max_left _ _) h1, ?_⟩
    intro i hi
    rcases List.mem_cons.1 hi with rfl | hi
    · exact le_trans (le_max_right _ _) h1
    · exact h2 i hi

theorem le_cutoff {d : Nat} (g : Geometry d) (atol : ℝ) (h : 0 ≤ atol) (i : Fin d) (x : ℝ)
    (hx : x ≤ ∑ j : Fin d, (g.basis i j) ^ 2) : Real.sqrt x ≤ cutoff g atol := by
  unfold cutoff
  have := (foldl_max_ge (fun i => Real.sqrt (∑ j : Fin d, (g.basis i j) ^ 2)) (List.finRange d) 0).2 i (List.mem_finRange i)
  have h2 := Real.sqrt_le_sqrt hx
  linarith

theorem site3 (nb : Nat) (c : List Int) (h : IsSite 3 nb c) : ∃ x y z q, c = [x, y, z, q] ∧ 0 ≤ q ∧ q < (nb : Int) := by
  obtain ⟨h1, h2, h3⟩ := h
  obtain ⟨x, y, z, q, rfl⟩ : ∃ x y z q, c = [x, y, z, q] := by
    rcases c with _ | ⟨x, _ | ⟨y, _ | ⟨z, _ | ⟨q, _ | ⟨w, ws⟩⟩⟩⟩⟩ <;> simp at h1
    exact ⟨x, y, z, q, rfl⟩
  exact ⟨x, y, z, q, rfl, h2, h3⟩

theorem site2 (nb : Nat) (c : List Int) (h : IsSite 2 nb c) : ∃ x y q, c = [x, y, q] ∧ 0 ≤ q ∧ q < (nb : Int) := by
  obtain ⟨h1, h2, h3⟩ := h
  obtain ⟨x, y, q, rfl⟩ : ∃ x y q, c = [x, y, q] := by
    rcases c with _ | ⟨x, _ | ⟨y, _ | ⟨q, _ | ⟨w, ws⟩⟩⟩⟩ <;> simp at h1
    exact ⟨x, y, q, rfl⟩
  exact ⟨x, y, q, rfl, h2, h3⟩

/-- entries of integer coordinates. -/
def at3 (f : Int → Int → Int → Int → Int) (c : List Int) : Int := f (c.getD 0 0) (c.getD 1 0) (c.getD 2 0) (c.getD 3 0)

/-- sum of squares of the differences of three integer functions of the coordinates. -/
def sq3 (f1 f2 f3 : Int → Int → Int → Int → Int) (c c' : List Int) : Int :=
  (at3 f1 c' - at3 f1 c) ^ 2 + (at3 f2 c' - at3 f2 c) ^ 2 + (at3 f3 c' - at3 f3 c) ^ 2

/-- `N |x|²` for positions whose multiples by `s` have integer coordinates. -/
theorem value3 (g : Geometry 3) (s : Nat) (f1 f2 f3 : Int → Int → Int → Int → Int) (nb : Nat)
    (h : ∀ x y z q : Int, 0 ≤ q → q < (nb : Int) → (s : ℝ) * position g [x, y, z, q] 0 = (f1 x y z q : ℝ)
      ∧ (s : ℝ) * position g [x, y, z, q] 1 = (f2 x y z q : ℝ) ∧ (s : ℝ) * position g [x, y, z, q] 2 = (f3 x y z q : ℝ))
    (c c' : List Int) (hc : IsSite 3 nb c) (hc' : IsSite 3 nb c') :
    ((s * s : Nat) : ℝ) * ∑ j : Fin 3, (position g c j - position g c' j) ^ 2 = (sq3 f1 f2 f3 c c' : ℝ) := by
  obtain ⟨x, y, z, q, rfl, hq⟩ := site3 nb c hc
  obtain ⟨x', y', z', q', rfl, hq'⟩ := site3 nb c' hc'
  obtain ⟨h1, h2, h3⟩ := h x y z q hq.1 hq.2
  obtain ⟨h1', h2', h3'⟩ := h x' y' z' q' hq'.1 hq'.2
  rw [Fin.sum_univ_three]
  have e : ((s * s : Nat) : ℝ) * ((position g [x, y, z, q] 0 - position g [x', y', z', q'] 0) ^ 2
      + (position g [x, y, z, q] 1 - position g [x', y', z', q'] 1) ^ 2
      + (position g [x, y, z, q] 2 - position g [x', y', z', q'] 2) ^ 2)
    = ((s : ℝ) * position g [x', y', z', q'] 0 - s * position g [x, y, z, q] 0) ^ 2
      + ((s : ℝ) * position g [x', y', z', q'] 1 - s * position g [x, y, z, q] 1) ^ 2
      + ((s : ℝ) * position g [x', y', z', q'] 2 - s * position g [x, y, z, q] 2) ^ 2 := by push_cast; ring
  rw [e, h1, h2, h3, h1', h2', h3']
  simp only [sq3, at3, List.getD_cons_zero, List.getD_cons_succ]
  push_cast
  ring

/-- small sums of three squares. -/
theorem bound3 (a b c : Int) (m : Int) (h : a ^ 2 + b ^ 2 + c ^ 2 ≤ m) : a ^ 2 ≤ m ∧ b ^ 2 ≤ m ∧ c ^ 2 ≤ m := by
  have h1 := sq_nonneg a
  have h2 := sq_nonneg b
  have h3 := sq_nonneg c
  exact ⟨by omega, by omega, by omega⟩

theorem le_one_of_sq (a : Int) (h : a ^ 2 < 4) : -1 ≤ a ∧ a ≤ 1 := by
  constructor <;> nlinarith

/-! ### BCC -/

/-- the steps to the eight neighbours: along the three basis vectors and their sum. -/
def bccSteps (_ _ : Int) : List (List Int) :=
  [[1, 0, 0], [-1, 0, 0], [0, 1, 0], [0, -1, 0], [0, 0, 1], [0, 0, -1], [1, 1, 1], [-1, -1, -1]]

theorem bcc_class (u v w : Int) : (-u + v + w) ^ 2 + (u - v + w) ^ 2 + (u + v - w) ^ 2 = 3 ↔
    (u = 1 ∧ v = 0 ∧ w = 0) ∨ (u = -1 ∧ v = 0 ∧ w = 0) ∨ (u = 0 ∧ v = 1 ∧ w = 0) ∨ (u = 0 ∧ v = -1 ∧ w = 0)
    ∨ (u = 0 ∧ v = 0 ∧ w = 1) ∨ (u = 0 ∧ v = 0 ∧ w = -1) ∨ (u = 1 ∧ v = 1 ∧ w = 1) ∨ (u = -1 ∧ v = -1 ∧ w = -1) := by
  constructor
  · intro h
    obtain ⟨h1, h2, h3⟩ := bound3 _ _ _ 3 h.le
    have g1 := le_one_of_sq _ (by omega : (-u + v + w) ^ 2 < 4)
    have g2 := le_one_of_sq _ (by omega : (u - v + w) ^ 2 < 4)
    have g3 := le_one_of_sq _ (by omega : (u + v - w) ^ 2 < 4)
    obtain ⟨a, ha⟩ : ∃ a, a = -u + v + w := ⟨_, rfl⟩
    obtain ⟨b, hb⟩ : ∃ b, b = u - v + w := ⟨_, rfl⟩
    obtain ⟨c, hc⟩ : ∃ c, c = u + v - w := ⟨_, rfl⟩
    rw [← ha] at g1 h
    rw [← hb] at g2 h
    rw [← hc] at g3 h
    obtain ⟨g1, g1'⟩ := g1
    obtain ⟨g2, g2'⟩ := g2
    obtain ⟨g3, g3'⟩ := g3
    clear h1 h2 h3
    interval_cases a <;> interval_cases b <;> interval_cases c <;> omega
  · rintro (⟨rfl, rfl, rfl⟩ | ⟨rfl, rfl, rfl⟩ | ⟨rfl, rfl, rfl⟩ | ⟨rfl, rfl, rfl⟩ | ⟨rfl, rfl, rfl⟩ | ⟨rfl, rfl, rfl⟩ |
      ⟨rfl, rfl, rfl⟩ | ⟨rfl, rfl, rfl⟩) <;> norm_num

theorem bcc_least (u v w : Int) (h : (u, v, w) ≠ (0, 0, 0)) :
    3 ≤ (-u + v + w) ^ 2 + (u - v + w) ^ 2 + (u + v - w) ^ 2 := by
  by_contra hlt
  have hlt' : (-u + v + w) ^ 2 + (u - v + w) ^ 2 + (u + v - w) ^ 2 ≤ 2 := by omega
  obtain ⟨h1, h2, h3⟩ := bound3 _ _ _ 2 hlt'
  have g1 := le_one_of_sq _ (by omega : (-u + v + w) ^ 2 < 4)
  have g2 := le_one_of_sq _ (by omega : (u - v + w) ^ 2 < 4)
  have g3 := le_one_of_sq _ (by omega : (u + v - w) ^ 2 < 4)
  apply h
  obtain ⟨a, ha⟩ : ∃ a, a = -u + v + w := ⟨_, rfl⟩
  obtain ⟨b, hb⟩ : ∃ b, b = u - v + w := ⟨_, rfl⟩
  obtain ⟨c, hc⟩ : ∃ c, c = u + v - w := ⟨_, rfl⟩
  rw [← ha] at g1 hlt'
  rw [← hb] at g2 hlt'
  rw [← hc] at g3 hlt'
  obtain ⟨g1, g1'⟩ := g1
  obtain ⟨g2, g2'⟩ := g2
  obtain ⟨g3, g3'⟩ := g3
  have : u = 0 ∧ v = 0 ∧ w = 0 := by
    clear h1 h2 h3 hlt h
    interval_cases a <;> interval_cases b <;> interval_cases c <;> omega
  rw [this.1, this.2.1, this.2.2]

theorem moved3 (x y z q x' y' z' q' r s t : Int) :
    Moved [x, y, z, q] [r, s, t] [x', y', z', q'] ↔ x' - x = r ∧ y' - y = s ∧ z' - z = t := by
  simp only [Moved, and_true]
  omega

def bccForm : Form bcc 4 3 bccSteps where
  k := sq3 (fun x y z _ => -x + y + z) (fun x y z _ => x - y + z) (fun x y z _ => x + y - z)
  hN := by norm_num
  hk0 := by norm_num
  gap := by norm_num
  value c c' hc hc' := by
    have := value3 bcc 2 (fun x y z _ => -x + y + z) (fun x y z _ => x - y + z) (fun x y z _ => x + y - z) 1 (by
      intro x y z q h0 h1
      have : q = 0 := by omega
      subst this
      simp only [position, bcc, Fin.sum_univ_three]
      refine ⟨?_, ?_, ?_⟩ <;> simp <;> ring) c c' hc hc'
    exact_mod_cast this
  least c c' hc hc' hne := by
    obtain ⟨x, y, z, q, rfl, hq⟩ := site3 _ c hc
    obtain ⟨x', y', z', q', rfl, hq'⟩ := site3 _ c' hc'
    have hqq : q' = q := by simp [bcc] at hq hq'; omega
    subst hqq
    have := bcc_least (x' - x) (y' - y) (z' - z) (by
      intro h
      simp only [Prod.mk.injEq] at h
      apply hne
      rw [show x = x' by omega, show y = y' by omega, show z = z' by omega])
    simp only [sq3, at3, List.getD_cons_zero, List.getD_cons_succ]
    push_cast
    refine le_trans this (le_of_eq ?_)
    ring
  steps c c' hc hc' := by
    obtain ⟨x, y, z, q, rfl, hq⟩ := site3 _ c hc
    obtain ⟨x', y', z', q', rfl, hq'⟩ := site3 _ c' hc'
    have := bcc_class (x' - x) (y' - y) (z' - z)
    simp only [sq3, at3, List.getD_cons_zero, List.getD_cons_succ]
    have e : (-x' + y' + z' - (-x + y + z)) ^ 2 + (x' - y' + z' - (x - y + z)) ^ 2 + (x' + y' - z' - (x + y - z)) ^ 2
        = (-(x' - x) + (y' - y) + (z' - z)) ^ 2 + ((x' - x) - (y' - y) + (z' - z)) ^ 2 + ((x' - x) + (y' - y) - (z' - z)) ^ 2 := by
      ring
    push_cast
    rw [e, this]
    simp only [bccSteps, List.mem_cons, List.not_mem_nil, or_false, exists_eq_or_imp, exists_eq_left, moved3]

/-! ### FCC -/

/-- the steps to the twelve neighbours: along the basis vectors and their differences. -/
def fccSteps (_ _ : Int) : List (List Int) :=
  [[1, 0, 0], [-1, 0, 0], [0, 1, 0], [0, -1, 0], [0, 0, 1], [0, 0, -1], [1, -1, 0], [-1, 1, 0], [1, 0, -1], [-1, 0, 1],
    [0, 1, -1], [0, -1, 1]]

theorem small3 (a b c : Int) (h : a ^ 2 + b ^ 2 + c ^ 2 ≤ 3) : (-1 ≤ a ∧ a ≤ 1) ∧ (-1 ≤ b ∧ b ≤ 1) ∧ (-1 ≤ c ∧ c ≤ 1) := by
  obtain ⟨h1, h2, h3⟩ := bound3 _ _ _ 3 h
  exact ⟨le_one_of_sq _ (by omega), le_one_of_sq _ (by omega), le_one_of_sq _ (by omega)⟩

/-- integers determined by three small combinations. -/
theorem fcc_class (u v w : Int) : (v + w) ^ 2 + (u + w) ^ 2 + (u + v) ^ 2 = 2 ↔
    (u = 1 ∧ v = 0 ∧ w = 0) ∨ (u = -1 ∧ v = 0 ∧ w = 0) ∨ (u = 0 ∧ v = 1 ∧ w = 0) ∨ (u = 0 ∧ v = -1 ∧ w = 0)
    ∨ (u = 0 ∧ v = 0 ∧ w = 1) ∨ (u = 0 ∧ v = 0 ∧ w = -1) ∨ (u = 1 ∧ v = -1 ∧ w = 0) ∨ (u = -1 ∧ v = 1 ∧ w = 0)
    ∨ (u = 1 ∧ v = 0 ∧ w = -1) ∨ (u = -1 ∧ v = 0 ∧ w = 1) ∨ (u = 0 ∧ v = 1 ∧ w = -1) ∨ (u = 0 ∧ v = -1 ∧ w = 1) := by
  constructor
  · intro h
    obtain ⟨⟨g1, g1'⟩, ⟨g2, g2'⟩, g3, g3'⟩ := small3 _ _ _ (by omega : (v + w) ^ 2 + (u + w) ^ 2 + (u + v) ^ 2 ≤ 3)
    have hu : u = ((u + w) + (u + v) - (v + w)) / 2 := by omega
    have hv : v = ((v + w) + (u + v) - (u + w)) / 2 := by omega
    have hw : w = ((v + w) + (u + w) - (u + v)) / 2 := by omega
    have hpar : ((v + w) + (u + w) + (u + v)) % 2 = 0 := by omega
    generalize v + w = a at *
    generalize u + w = b at *
    generalize u + v = c at *
    subst hu hv hw
    interval_cases a <;> interval_cases b <;> interval_cases c <;> revert h hpar <;> decide
  · rintro (⟨rfl, rfl, rfl⟩ | ⟨rfl, rfl, rfl⟩ | ⟨rfl, rfl, rfl⟩ | ⟨rfl, rfl, rfl⟩ | ⟨rfl, rfl, rfl⟩ | ⟨rfl, rfl, rfl⟩ |
      ⟨rfl, rfl, rfl⟩ | ⟨rfl, rfl, rfl⟩ | ⟨rfl, rfl, rfl⟩ | ⟨rfl, rfl, rfl⟩ | ⟨rfl, rfl, rfl⟩ | ⟨rfl, rfl, rfl⟩) <;> norm_num

theorem fcc_least (u v w : Int) (h : ¬(u = 0 ∧ v = 0 ∧ w = 0)) : 2 ≤ (v + w) ^ 2 + (u + w) ^ 2 + (u + v) ^ 2 := by
  by_contra hlt
  have hlt' : (v + w) ^ 2 + (u + w) ^ 2 + (u + v) ^ 2 ≤ 1 := by omega
  obtain ⟨⟨g1, g1'⟩, ⟨g2, g2'⟩, g3, g3'⟩ := small3 _ _ _ (by omega : (v + w) ^ 2 + (u + w) ^ 2 + (u + v) ^ 2 ≤ 3)
  apply h
  obtain ⟨a, ha⟩ : ∃ a, a = v + w := ⟨_, rfl⟩
  obtain ⟨b, hb⟩ : ∃ b, b = u + w := ⟨_, rfl⟩
  obtain ⟨c, hc⟩ : ∃ c, c = u + v := ⟨_, rfl⟩
  rw [← ha] at g1 g1' hlt'
  rw [← hb] at g2 g2' hlt'
  rw [← hc] at g3 g3' hlt'
  clear hlt h
  interval_cases a <;> interval_cases b <;> interval_cases c <;> omega

def fccForm : Form fcc 4 2 fccSteps where
  k := sq3 (fun x y z _ => y + z) (fun x y z _ => x + z) (fun x y z _ => x + y)
  hN := by norm_num
  hk0 := by norm_num
  gap := by norm_num
  value c c' hc hc' := by
    have := value3 fcc 2 (fun x y z _ => y + z) (fun x y z _ => x + z) (fun x y z _ => x + y) 1 (by
      intro x y z q h0 h1
      have : q = 0 := by omega
      subst this
      simp only [position, fcc, fccBasis, Fin.sum_univ_three]
      refine ⟨?_, ?_, ?_⟩ <;> simp <;> ring) c c' hc hc'
    exact_mod_cast this
  least c c' hc hc' hne := by
    obtain ⟨x, y, z, q, rfl, hq⟩ := site3 _ c hc
    obtain ⟨x', y', z', q', rfl, hq'⟩ := site3 _ c' hc'
    have hqq : q' = q := by simp [fcc] at hq hq'; omega
    subst hqq
    have := fcc_least (x' - x) (y' - y) (z' - z) (by
      intro h
      apply hne
      rw [show x = x' by omega, show y = y' by omega, show z = z' by omega])
    simp only [sq3, at3, List.getD_cons_zero, List.getD_cons_succ]
    push_cast
    refine le_trans this (le_of_eq ?_)
    ring
  steps c c' hc hc' := by
    obtain ⟨x, y, z, q, rfl, hq⟩ := site3 _ c hc
    obtain ⟨x', y', z', q', rfl, hq'⟩ := site3 _ c' hc'
    have := fcc_class (x' - x) (y' - y) (z' - z)
    simp only [sq3, at3, List.getD_cons_zero, List.getD_cons_succ]
    have e : (y' + z' - (y + z)) ^ 2 + (x' + z' - (x + z)) ^ 2 + (x' + y' - (x + y)) ^ 2
        = ((y' - y) + (z' - z)) ^ 2 + ((x' - x) + (z' - z)) ^ 2 + ((x' - x) + (y' - y)) ^ 2 := by
      ring
    push_cast
    rw [e, this]
    simp only [fccSteps, List.mem_cons, List.not_mem_nil, or_false, exists_eq_or_imp, exists_eq_left, moved3]

/-! ### Diamond -/

/-- the steps to the four neighbours, all on the other sublattice. -/
def diamondSteps (q q' : Int) : List (List Int) :=
  if q = 0 ∧ q' = 1 then [[0, 0, 0], [-1, 0, 0], [0, -1, 0], [0, 0, -1]]
  else if q = 1 ∧ q' = 0 then [[0, 0, 0], [1, 0, 0], [0, 1, 0], [0, 0, 1]]
  else []

theorem diamond_class (u v w : Int) : (2 * (v + w) + 1) ^ 2 + (2 * (u + w) + 1) ^ 2 + (2 * (u + v) + 1) ^ 2 = 3 ↔
    (u = 0 ∧ v = 0 ∧ w = 0) ∨ (u = -1 ∧ v = 0 ∧ w = 0) ∨ (u = 0 ∧ v = -1 ∧ w = 0) ∨ (u = 0 ∧ v = 0 ∧ w = -1) := by
  constructor
  · intro h
    obtain ⟨⟨g1, g1'⟩, ⟨g2, g2'⟩, g3, g3'⟩ := small3 _ _ _ h.le
    clear h
    omega
  · rintro (⟨rfl, rfl, rfl⟩ | ⟨rfl, rfl, rfl⟩ | ⟨rfl, rfl, rfl⟩ | ⟨rfl, rfl, rfl⟩) <;> norm_num

theorem odd_sq (a : Int) : 1 ≤ (2 * a + 1) ^ 2 := by
  have : 0 < (2 * a + 1) ^ 2 := by
    have h : 2 * a + 1 ≠ 0 := by omega
    positivity
  omega

def diamondForm : Form diamond 16 3 diamondSteps where
  k := sq3 (fun x y z q => 2 * (y + z) + q) (fun x y z q => 2 * (x + z) + q) (fun x y z q => 2 * (x + y) + q)
  hN := by norm_num
  hk0 := by norm_num
  gap := by norm_num
  value c c' hc hc' := by
    have := value3 diamond 4 (fun x y z q => 2 * (y + z) + q) (fun x y z q => 2 * (x + z) + q) (fun x y z q => 2 * (x + y) + q) 2 (by
      intro x y z q h0 h1
      have : q = 0 ∨ q = 1 := by push_cast at h1; omega
      simp only [position, diamond, fccBasis, Fin.sum_univ_three]
      rcases this with rfl | rfl <;> refine ⟨?_, ?_, ?_⟩ <;> simp <;> ring) c c' hc hc'
    exact_mod_cast this
  least c c' hc hc' hne := by
    obtain ⟨x, y, z, q, rfl, hq⟩ := site3 _ c hc
    obtain ⟨x', y', z', q', rfl, hq'⟩ := site3 _ c' hc'
    have hq2 : q = 0 ∨ q = 1 := by simp [diamond] at hq; omega
    have hq2' : q' = 0 ∨ q' = 1 := by simp [diamond] at hq'; omega
    simp only [sq3, at3, List.getD_cons_zero, List.getD_cons_succ]
    push_cast
    by_cases hqq : q = q'
    · subst hqq
      have := fcc_least (x' - x) (y' - y) (z' - z) (by
        intro h
        apply hne
        rw [show x = x' by omega, show y = y' by omega, show z = z' by omega])
      have e : (2 * (y' + z') + q - (2 * (y + z) + q)) ^ 2 + (2 * (x' + z') + q - (2 * (x + z) + q)) ^ 2
          + (2 * (x' + y') + q - (2 * (x + y) + q)) ^ 2
          = 4 * (((y' - y) + (z' - z)) ^ 2 + ((x' - x) + (z' - z)) ^ 2 + ((x' - x) + (y' - y)) ^ 2) := by ring
      rw [e]
      omega
    · have h1 : ∀ a b : Int, 1 ≤ (2 * a + q' - (2 * b + q)) ^ 2 := by
        intro a b
        rcases hq2 with rfl | rfl <;> rcases hq2' with rfl | rfl
        · exact absurd rfl hqq
        · have := odd_sq (a - b)
          calc (1 : Int) ≤ _ := this
            _ = _ := by ring
        · have := odd_sq (a - b - 1)
          calc (1 : Int) ≤ _ := this
            _ = _ := by ring
        · exact absurd rfl hqq
      have := h1 (y' + z') (y + z)
      have := h1 (x' + z') (x + z)
      have := h1 (x' + y') (x + y)
      omega
  steps c c' hc hc' := by
    obtain ⟨x, y, z, q, rfl, hq⟩ := site3 _ c hc
    obtain ⟨x', y', z', q', rfl, hq'⟩ := site3 _ c' hc'
    have hq2 : q = 0 ∨ q = 1 := by simp [diamond] at hq; omega
    have hq2' : q' = 0 ∨ q' = 1 := by simp [diamond] at hq'; omega
    simp only [sq3, at3, List.getD_cons_zero, List.getD_cons_succ]
    push_cast
    by_cases hqq : q = q'
    · subst hqq
      have e : (2 * (y' + z') + q - (2 * (y + z) + q)) ^ 2 + (2 * (x' + z') + q - (2 * (x + z) + q)) ^ 2
          + (2 * (x' + y') + q - (2 * (x + y) + q)) ^ 2
          = 4 * (((y' - y) + (z' - z)) ^ 2 + ((x' - x) + (z' - z)) ^ 2 + ((x' - x) + (y' - y)) ^ 2) := by ring
      rw [e]
      have hS : diamondSteps (lab [x, y, z, q]) (lab [x', y', z', q]) = [] := by
        unfold diamondSteps
        have h1 : ¬(lab [x, y, z, q] = 0 ∧ lab [x', y', z', q] = 1) := by simp only [lab]; simp; omega
        have h2 : ¬(lab [x, y, z, q] = 1 ∧ lab [x', y', z', q] = 0) := by simp only [lab]; simp; omega
        rw [if_neg h1, if_neg h2]
      rw [hS]
      simp only [List.not_mem_nil, false_and, exists_false, iff_false]
      omega
    · rcases hq2 with rfl | rfl <;> rcases hq2' with rfl | rfl
      · exact absurd rfl hqq
      · have := diamond_class (x' - x) (y' - y) (z' - z)
        have e : (2 * (y' + z') + 1 - (2 * (y + z) + 0)) ^ 2 + (2 * (x' + z') + 1 - (2 * (x + z) + 0)) ^ 2
            + (2 * (x' + y') + 1 - (2 * (x + y) + 0)) ^ 2
            = (2 * ((y' - y) + (z' - z)) + 1) ^ 2 + (2 * ((x' - x) + (z' - z)) + 1) ^ 2
              + (2 * ((x' - x) + (y' - y)) + 1) ^ 2 := by ring
        rw [e, this]
        have hS : diamondSteps (lab [x, y, z, 0]) (lab [x', y', z', 1]) = [[0, 0, 0], [-1, 0, 0], [0, -1, 0], [0, 0, -1]] := rfl
        rw [hS]
        simp only [List.mem_cons, List.not_mem_nil, or_false, exists_eq_or_imp, exists_eq_left, moved3]
      · have := diamond_class (x - x') (y - y') (z - z')
        have e : (2 * (y' + z') + 0 - (2 * (y + z) + 1)) ^ 2 + (2 * (x' + z') + 0 - (2 * (x + z) + 1)) ^ 2
            + (2 * (x' + y') + 0 - (2 * (x + y) + 1)) ^ 2
            = (2 * ((y - y') + (z - z')) + 1) ^ 2 + (2 * ((x - x') + (z - z')) + 1) ^ 2
              + (2 * ((x - x') + (y - y')) + 1) ^ 2 := by ring
        rw [e, this]
        have hS : diamondSteps (lab [x, y, z, 1]) (lab [x', y', z', 0]) = [[0, 0, 0], [1, 0, 0], [0, 1, 0], [0, 0, 1]] := rfl
        rw [hS]
        simp only [List.mem_cons, List.not_mem_nil, or_false, exists_eq_or_imp, exists_eq_left, moved3]
        omega
      · exact absurd rfl hqq

/-! ### Pyrochlore -/

/-- the cell that the site `q` of the tetrahedron around a cell corner belongs to. -/
def pyroCell (q : Int) : Int × Int × Int :=
  if q = 1 then (1, 0, 0) else if q = 2 then (0, 1, 0) else if q = 3 then (0, 0, 1) else (0, 0, 0)

/-- the steps to the six neighbours, two on each other sublattice. -/
def pyroSteps (q q' : Int) : List (List Int) :=
  if q = q' then [] else [[0, 0, 0],
    [(pyroCell q).1 - (pyroCell q').1, (pyroCell q).2.1 - (pyroCell q').2.1, (pyroCell q).2.2 - (pyroCell q').2.2]]

/-- eight times the site offsets. -/
def pyroOff (i q : Int) : Int := if q = 0 ∨ q = i then 1 else 3

theorem pyro_class (q q' u v w : Int) (hq : q = 0 ∨ q = 1 ∨ q = 2 ∨ q = 3) (hq' : q' = 0 ∨ q' = 1 ∨ q' = 2 ∨ q' = 3)
    (hne : q ≠ q') :
    8 ≤ (4 * (v + w) + (pyroOff 1 q' - pyroOff 1 q)) ^ 2 + (4 * (u + w) + (pyroOff 2 q' - pyroOff 2 q)) ^ 2
      + (4 * (u + v) + (pyroOff 3 q' - pyroOff 3 q)) ^ 2
    ∧ ((4 * (v + w) + (pyroOff 1 q' - pyroOff 1 q)) ^ 2 + (4 * (u + w) + (pyroOff 2 q' - pyroOff 2 q)) ^ 2
      + (4 * (u + v) + (pyroOff 3 q' - pyroOff 3 q)) ^ 2 = 8 ↔ (u = 0 ∧ v = 0 ∧ w = 0) ∨
      (u = (pyroCell q).1 - (pyroCell q').1 ∧ v = (pyroCell q).2.1 - (pyroCell q').2.1
        ∧ w = (pyroCell q).2.2 - (pyroCell q').2.2)) := by
  have key : ∀ A B C : Int, (∃ a b c : Int, A = 2 * a ∧ B = 2 * b ∧ C = 2 * c
      ∧ 4 * (v + w) + (pyroOff 1 q' - pyroOff 1 q) = 2 * a ∧ 4 * (u + w) + (pyroOff 2 q' - pyroOff 2 q) = 2 * b
      ∧ 4 * (u + v) + (pyroOff 3 q' - pyroOff 3 q) = 2 * c) → A ^ 2 + B ^ 2 + C ^ 2 ≤ 8 →
      ∃ a b c : Int, A = 2 * a ∧ B = 2 * b ∧ C = 2 * c
      ∧ 4 * (v + w) + (pyroOff 1 q' - pyroOff 1 q) = 2 * a ∧ 4 * (u + w) + (pyroOff 2 q' - pyroOff 2 q) = 2 * b
      ∧ 4 * (u + v) + (pyroOff 3 q' - pyroOff 3 q) = 2 * c ∧ a ^ 2 + b ^ 2 + c ^ 2 ≤ 2
      ∧ (-1 ≤ a ∧ a ≤ 1) ∧ (-1 ≤ b ∧ b ≤ 1) ∧ (-1 ≤ c ∧ c ≤ 1) := by
    rintro A B C ⟨a, b, c, h1, h2, h3, h4, h5, h6⟩ hle
    have h7 : a ^ 2 + b ^ 2 + c ^ 2 ≤ 2 := by
      rw [h1, h2, h3] at hle
      have : (2 * a) ^ 2 + (2 * b) ^ 2 + (2 * c) ^ 2 = 4 * (a ^ 2 + b ^ 2 + c ^ 2) := by ring
      omega
    exact ⟨a, b, c, h1, h2, h3, h4, h5, h6, h7, small3 _ _ _ (by omega)⟩
  have hex : ∃ a b c : Int, 4 * (v + w) + (pyroOff 1 q' - pyroOff 1 q) = 2 * a ∧ 4 * (u + w) + (pyroOff 2 q' - pyroOff 2 q) = 2 * b
      ∧ 4 * (u + v) + (pyroOff 3 q' - pyroOff 3 q) = 2 * c ∧ 4 * (v + w) + (pyroOff 1 q' - pyroOff 1 q) = 2 * a ∧ 4 * (u + w) + (pyroOff 2 q' - pyroOff 2 q) = 2 * b
      ∧ 4 * (u + v) + (pyroOff 3 q' - pyroOff 3 q) = 2 * c := by
    have : ∀ i q : Int, pyroOff i q % 2 = 1 := by intro i q; unfold pyroOff; split_ifs <;> rfl
    have h1 := this 1 q; have h2 := this 2 q; have h3 := this 3 q
    have h1' := this 1 q'; have h2' := this 2 q'; have h3' := this 3 q'
    exact ⟨2 * (v + w) + (pyroOff 1 q' - pyroOff 1 q) / 2, 2 * (u + w) + (pyroOff 2 q' - pyroOff 2 q) / 2,
      2 * (u + v) + (pyroOff 3 q' - pyroOff 3 q) / 2, by omega, by omega, by omega, by omega, by omega, by omega⟩
  constructor
  · by_contra hlt
    obtain ⟨a, b, c, e1, e2, e3, h1, h2, h3, h4, ⟨g1, g1'⟩, ⟨g2, g2'⟩, g3, g3'⟩ := key _ _ _ hex (by omega)
    have h5 : a ^ 2 + b ^ 2 + c ^ 2 ≤ 1 := by
      rw [h1, h2, h3] at hlt
      have : (2 * a) ^ 2 + (2 * b) ^ 2 + (2 * c) ^ 2 = 4 * (a ^ 2 + b ^ 2 + c ^ 2) := by ring
      omega
    clear e1 e2 e3 hlt key hex h4
    rcases hq with rfl | rfl | rfl | rfl <;> rcases hq' with rfl | rfl | rfl | rfl <;> simp [pyroOff] at h1 h2 h3 hne <;>
      interval_cases a <;> interval_cases b <;> interval_cases c <;> omega
  · constructor
    · intro heq
      obtain ⟨a, b, c, e1, e2, e3, h1, h2, h3, h4, ⟨g1, g1'⟩, ⟨g2, g2'⟩, g3, g3'⟩ := key _ _ _ hex (by omega)
      clear e1 e2 e3 heq key hex
      rcases hq with rfl | rfl | rfl | rfl <;> rcases hq' with rfl | rfl | rfl | rfl <;>
        simp [pyroOff, pyroCell] at h1 h2 h3 hne ⊢ <;>
        interval_cases a <;> interval_cases b <;> interval_cases c <;> omega
    · intro h
      rcases hq with rfl | rfl | rfl | rfl <;> rcases hq' with rfl | rfl | rfl | rfl <;>
        simp [pyroOff, pyroCell] at h hne ⊢ <;> rcases h with ⟨rfl, rfl, rfl⟩ | ⟨rfl, rfl, rfl⟩ <;> norm_num

theorem pyroOff_pos (q : Int) (h : q = 0 ∨ q = 1 ∨ q = 2 ∨ q = 3) (x y z : Int) :
    (8 : ℝ) * position pyrochlore [x, y, z, q] 0 = ((4 * (y + z) + pyroOff 1 q : Int) : ℝ)
    ∧ (8 : ℝ) * position pyrochlore [x, y, z, q] 1 = ((4 * (x + z) + pyroOff 2 q : Int) : ℝ)
    ∧ (8 : ℝ) * position pyrochlore [x, y, z, q] 2 = ((4 * (x + y) + pyroOff 3 q : Int) : ℝ) := by
  simp only [position, pyrochlore, fccBasis, Fin.sum_univ_three]
  rcases h with rfl | rfl | rfl | rfl <;> refine ⟨?_, ?_, ?_⟩ <;> simp [pyroOff] <;> ring

/-- steps between existing sites of the cell only. -/
def restrict (nb : Nat) (S : Int → Int → List (List Int)) (q q' : Int) : List (List Int) :=
  if q ∈ upto nb ∧ q' ∈ upto nb then S q q' else []

theorem mem_restrict {nb : Nat} {S : Int → Int → List (List Int)} {q q' : Int} {δ : List Int} (h : δ ∈ restrict nb S q q') :
    q ∈ upto nb ∧ q' ∈ upto nb ∧ δ ∈ S q q' := by
  unfold restrict at h
  split_ifs at h with hc
  · exact ⟨hc.1, hc.2, h⟩
  · simp at h

def Form.restrict {d : Nat} {g : Geometry d} {N k0 : Nat} {S : Int → Int → List (List Int)} (F : Form g N k0 S) :
    Form g N k0 (restrict g.offsets.length S) where
  k := F.k
  hN := F.hN
  hk0 := F.hk0
  gap := F.gap
  value := F.value
  least := F.least
  steps c c' hc hc' := by
    rw [F.steps c c' hc hc', CommonLat.restrict, if_pos ⟨(mem_upto _ _).2 hc.2, (mem_upto _ _).2 hc'.2⟩]

def pyroForm : Form pyrochlore 64 8 pyroSteps where
  k := sq3 (fun x y z q => 4 * (y + z) + pyroOff 1 q) (fun x y z q => 4 * (x + z) + pyroOff 2 q)
    (fun x y z q => 4 * (x + y) + pyroOff 3 q)
  hN := by norm_num
  hk0 := by norm_num
  gap := by norm_num
  value c c' hc hc' := by
    have := value3 pyrochlore 8 (fun x y z q => 4 * (y + z) + pyroOff 1 q) (fun x y z q => 4 * (x + z) + pyroOff 2 q)
      (fun x y z q => 4 * (x + y) + pyroOff 3 q) 4 (by
      intro x y z q h0 h1
      exact_mod_cast pyroOff_pos q (by push_cast at h1; omega) x y z) c c' hc hc'
    exact_mod_cast this
  least c c' hc hc' hne := by
    obtain ⟨x, y, z, q, rfl, hq⟩ := site3 _ c hc
    obtain ⟨x', y', z', q', rfl, hq'⟩ := site3 _ c' hc'
    have hq2 : q = 0 ∨ q = 1 ∨ q = 2 ∨ q = 3 := by simp [pyrochlore] at hq; omega
    have hq2' : q' = 0 ∨ q' = 1 ∨ q' = 2 ∨ q' = 3 := by simp [pyrochlore] at hq'; omega
    simp only [sq3, at3, List.getD_cons_zero, List.getD_cons_succ]
    push_cast
    by_cases hqq : q = q'
    · subst hqq
      have := fcc_least (x' - x) (y' - y) (z' - z) (by
        intro h
        apply hne
        rw [show x = x' by omega, show y = y' by omega, show z = z' by omega])
      refine le_trans (by omega : (8 : Int) ≤ 16 * (((y' - y) + (z' - z)) ^ 2 + ((x' - x) + (z' - z)) ^ 2
        + ((x' - x) + (y' - y)) ^ 2)) (le_of_eq ?_)
      ring
    · refine le_trans (pyro_class q q' (x' - x) (y' - y) (z' - z) hq2 hq2' hqq).1 (le_of_eq ?_)
      ring
  steps c c' hc hc' := by
    obtain ⟨x, y, z, q, rfl, hq⟩ := site3 _ c hc
    obtain ⟨x', y', z', q', rfl, hq'⟩ := site3 _ c' hc'
    have hq2 : q = 0 ∨ q = 1 ∨ q = 2 ∨ q = 3 := by simp [pyrochlore] at hq; omega
    have hq2' : q' = 0 ∨ q' = 1 ∨ q' = 2 ∨ q' = 3 := by simp [pyrochlore] at hq'; omega
    simp only [sq3, at3, List.getD_cons_zero, List.getD_cons_succ]
    push_cast
    have hl : lab [x, y, z, q] = q := rfl
    have hl' : lab [x', y', z', q'] = q' := rfl
    rw [hl, hl']
    have e : (4 * (y' + z') + pyroOff 1 q' - (4 * (y + z) + pyroOff 1 q)) ^ 2
        + (4 * (x' + z') + pyroOff 2 q' - (4 * (x + z) + pyroOff 2 q)) ^ 2
        + (4 * (x' + y') + pyroOff 3 q' - (4 * (x + y) + pyroOff 3 q)) ^ 2
        = (4 * ((y' - y) + (z' - z)) + (pyroOff 1 q' - pyroOff 1 q)) ^ 2
        + (4 * ((x' - x) + (z' - z)) + (pyroOff 2 q' - pyroOff 2 q)) ^ 2
        + (4 * ((x' - x) + (y' - y)) + (pyroOff 3 q' - pyroOff 3 q)) ^ 2 := by ring
    rw [e]
    by_cases hqq : q = q'
    · subst hqq
      have e2 : (4 * ((y' - y) + (z' - z)) + (pyroOff 1 q - pyroOff 1 q)) ^ 2
        + (4 * ((x' - x) + (z' - z)) + (pyroOff 2 q - pyroOff 2 q)) ^ 2
        + (4 * ((x' - x) + (y' - y)) + (pyroOff 3 q - pyroOff 3 q)) ^ 2
        = 16 * (((y' - y) + (z' - z)) ^ 2 + ((x' - x) + (z' - z)) ^ 2 + ((x' - x) + (y' - y)) ^ 2) := by ring
      rw [e2, pyroSteps, if_pos rfl]
      simp only [List.not_mem_nil, false_and, exists_false, iff_false]
      omega
    · rw [(pyro_class q q' (x' - x) (y' - y) (z' - z) hq2 hq2' hqq).2, pyroSteps, if_neg hqq]
      simp only [List.mem_cons, List.not_mem_nil, or_false, exists_eq_or_imp, exists_eq_left, moved3]

/-! ### The hexagonal lattices -/

/-- entries of integer coordinates. -/
def at2 (f : Int → Int → Int → Int) (c : List Int) : Int := f (c.getD 0 0) (c.getD 1 0) (c.getD 2 0)

/-- the form `A² + AB + B²` of the differences of two integer functions of the coordinates. -/
def hex2 (f1 f2 : Int → Int → Int → Int) (c c' : List Int) : Int :=
  (at2 f1 c' - at2 f1 c) ^ 2 + (at2 f1 c' - at2 f1 c) * (at2 f2 c' - at2 f2 c) + (at2 f2 c' - at2 f2 c) ^ 2

theorem value2 (g : Geometry 2) (s : Nat) (f1 f2 : Int → Int → Int → Int) (nb : Nat)
    (h : ∀ x y q : Int, 0 ≤ q → q < (nb : Int) → (s : ℝ) * position g [x, y, q] 0 = (f1 x y q : ℝ) + (f2 x y q : ℝ) / 2
      ∧ (s : ℝ) * position g [x, y, q] 1 = (f2 x y q : ℝ) * Real.sqrt (3 / 4))
    (c c' : List Int) (hc : IsSite 2 nb c) (hc' : IsSite 2 nb c') :
    ((s * s : Nat) : ℝ) * ∑ j : Fin 2, (position g c j - position g c' j) ^ 2 = (hex2 f1 f2 c c' : ℝ) := by
  obtain ⟨x, y, q, rfl, hq⟩ := site2 nb c hc
  obtain ⟨x', y', q', rfl, hq'⟩ := site2 nb c' hc'
  obtain ⟨h1, h2⟩ := h x y q hq.1 hq.2
  obtain ⟨h1', h2'⟩ := h x' y' q' hq'.1 hq'.2
  rw [Fin.sum_univ_two]
  have e : ((s * s : Nat) : ℝ) * ((position g [x, y, q] 0 - position g [x', y', q'] 0) ^ 2
      + (position g [x, y, q] 1 - position g [x', y', q'] 1) ^ 2)
    = ((s : ℝ) * position g [x', y', q'] 0 - s * position g [x, y, q] 0) ^ 2
      + ((s : ℝ) * position g [x', y', q'] 1 - s * position g [x, y, q] 1) ^ 2 := by push_cast; ring
  rw [e, h1, h2, h1', h2']
  have hs : Real.sqrt (3 / 4) ^ 2 = 3 / 4 := Real.sq_sqrt (by norm_num)
  have e2 : ((f2 x' y' q' : ℝ) * Real.sqrt (3 / 4) - (f2 x y q : ℝ) * Real.sqrt (3 / 4)) ^ 2
      = ((f2 x' y' q' : ℝ) - f2 x y q) ^ 2 * Real.sqrt (3 / 4) ^ 2 := by ring
  rw [e2, hs]
  simp only [hex2, at2, List.getD_cons_zero, List.getD_cons_succ]
  push_cast
  ring

theorem hex_bound (A B m : Int) (h : A ^ 2 + A * B + B ^ 2 ≤ m) (hm : m ≤ 3) : (-2 ≤ A ∧ A ≤ 2) ∧ (-2 ≤ B ∧ B ≤ 2) := by
  have h1 : 3 * A ^ 2 ≤ 12 := by nlinarith [sq_nonneg (A + 2 * B)]
  have h2 : 3 * B ^ 2 ≤ 12 := by nlinarith [sq_nonneg (B + 2 * A)]
  refine ⟨⟨?_, ?_⟩, ?_, ?_⟩ <;> nlinarith

theorem hex_one (A B : Int) : A ^ 2 + A * B + B ^ 2 = 1 ↔
    (A = 1 ∧ B = 0) ∨ (A = -1 ∧ B = 0) ∨ (A = 0 ∧ B = 1) ∨ (A = 0 ∧ B = -1) ∨ (A = 1 ∧ B = -1) ∨ (A = -1 ∧ B = 1) := by
  constructor
  · intro h
    obtain ⟨⟨h1, h2⟩, h3, h4⟩ := hex_bound A B 1 h.le (by norm_num)
    interval_cases A <;> interval_cases B <;> omega
  · rintro (⟨rfl, rfl⟩ | ⟨rfl, rfl⟩ | ⟨rfl, rfl⟩ | ⟨rfl, rfl⟩ | ⟨rfl, rfl⟩ | ⟨rfl, rfl⟩) <;> norm_num

theorem hex_three (A B : Int) (h : A ^ 2 + A * B + B ^ 2 = 3) :
    (A = 1 ∧ B = 1) ∨ (A = -1 ∧ B = -1) ∨ (A = 1 ∧ B = -2) ∨ (A = -1 ∧ B = 2) ∨ (A = -2 ∧ B = 1) ∨ (A = 2 ∧ B = -1) := by
  obtain ⟨⟨h1, h2⟩, h3, h4⟩ := hex_bound A B 3 h.le (by norm_num)
  interval_cases A <;> interval_cases B <;> omega

theorem hex_pos (A B : Int) (h : ¬(A = 0 ∧ B = 0)) : 1 ≤ A ^ 2 + A * B + B ^ 2 := by
  by_contra hlt
  apply h
  obtain ⟨⟨h1, h2⟩, h3, h4⟩ := hex_bound A B 0 (by omega) (by norm_num)
  interval_cases A <;> interval_cases B <;> omega

theorem moved2 (x y q x' y' q' r s : Int) :
    Moved [x, y, q] [r, s] [x', y', q'] ↔ x' - x = r ∧ y' - y = s := by
  simp only [Moved, and_true]
  omega

/-- the steps to the six neighbours. -/
def triangularSteps (_ _ : Int) : List (List Int) := [[1, 0], [-1, 0], [0, 1], [0, -1], [1, -1], [-1, 1]]

def triangularForm : Form triangular 1 1 triangularSteps where
  k := hex2 (fun x y _ => x) (fun x y _ => y)
  hN := by norm_num
  hk0 := by norm_num
  gap := by norm_num
  value c c' hc hc' := by
    have := value2 triangular 1 (fun x y _ => x) (fun x y _ => y) 1 (by
      intro x y q h0 h1
      have : q = 0 := by omega
      subst this
      simp only [position, triangular, hexBasis, Fin.sum_univ_two]
      refine ⟨?_, ?_⟩ <;> simp <;> ring) c c' hc hc'
    simpa using this
  least c c' hc hc' hne := by
    obtain ⟨x, y, q, rfl, hq⟩ := site2 _ c hc
    obtain ⟨x', y', q', rfl, hq'⟩ := site2 _ c' hc'
    have hqq : q' = q := by simp [triangular] at hq hq'; omega
    subst hqq
    simp only [hex2, at2, List.getD_cons_zero, List.getD_cons_succ]
    exact hex_pos _ _ (by
      intro h
      apply hne
      rw [show x = x' by omega, show y = y' by omega])
  steps c c' hc hc' := by
    obtain ⟨x, y, q, rfl, hq⟩ := site2 _ c hc
    obtain ⟨x', y', q', rfl, hq'⟩ := site2 _ c' hc'
    simp only [hex2, at2, List.getD_cons_zero, List.getD_cons_succ]
    push_cast
    rw [hex_one]
    simp only [triangularSteps, List.mem_cons, List.not_mem_nil, or_false, exists_eq_or_imp, exists_eq_left, moved2]

/-- the steps to the three neighbours, all on the other sublattice. -/
def honeycombSteps (q q' : Int) : List (List Int) :=
  if q = 0 ∧ q' = 1 then [[0, 0], [-1, 0], [0, -1]] else if q = 1 ∧ q' = 0 then [[0, 0], [1, 0], [0, 1]] else []

theorem sqrt34 : Real.sqrt (3 / 4) = Real.sqrt 3 / 2 := by
  rw [Real.sqrt_div (by norm_num)]
  congr 1
  rw [show (4 : ℝ) = 2 ^ 2 by norm_num, Real.sqrt_sq (by norm_num)]

theorem honeycomb_pos (x y q : Int) (h0 : q = 0 ∨ q = 1) :
    (3 : ℝ) * position honeycomb [x, y, q] 0 = ((3 * x + 1 + q : Int) : ℝ) + ((3 * y + 1 + q : Int) : ℝ) / 2
    ∧ (3 : ℝ) * position honeycomb [x, y, q] 1 = ((3 * y + 1 + q : Int) : ℝ) * Real.sqrt (3 / 4) := by
  have h3 : Real.sqrt 3 ≠ 0 := by positivity
  have hs : Real.sqrt 3 * Real.sqrt 3 = 3 := Real.mul_self_sqrt (by norm_num)
  have hd : (Real.sqrt 3)⁻¹ = Real.sqrt 3 / 3 := by
    field_simp
    rw [pow_two, hs]
  simp only [position, honeycomb, hexBasis, Fin.sum_univ_two]
  rw [sqrt34]
  rcases h0 with rfl | rfl <;> refine ⟨?_, ?_⟩ <;> simp [hd, div_eq_mul_inv] <;> ring

def honeycombForm : Form honeycomb 9 3 honeycombSteps where
  k := hex2 (fun x y q => 3 * x + 1 + q) (fun x y q => 3 * y + 1 + q)
  hN := by norm_num
  hk0 := by norm_num
  gap := by norm_num
  value c c' hc hc' := by
    have := value2 honeycomb 3 (fun x y q => 3 * x + 1 + q) (fun x y q => 3 * y + 1 + q) 2 (by
      intro x y q h0 h1
      exact_mod_cast honeycomb_pos x y q (by push_cast at h1; omega)) c c' hc hc'
    exact_mod_cast this
  least c c' hc hc' hne := by
    obtain ⟨x, y, q, rfl, hq⟩ := site2 _ c hc
    obtain ⟨x', y', q', rfl, hq'⟩ := site2 _ c' hc'
    simp [honeycomb] at hq hq'
    simp only [hex2, at2, List.getD_cons_zero, List.getD_cons_succ]
    push_cast
    by_cases hqq : q = q'
    · subst hqq
      have := hex_pos (x' - x) (y' - y) (by
        intro h
        apply hne
        rw [show x = x' by omega, show y = y' by omega])
      refine le_trans (by omega : (3 : Int) ≤ 9 * ((x' - x) ^ 2 + (x' - x) * (y' - y) + (y' - y) ^ 2)) (le_of_eq ?_)
      ring
    · by_contra hlt
      obtain ⟨A, hA⟩ : ∃ A, A = 3 * x' + 1 + q' - (3 * x + 1 + q) := ⟨_, rfl⟩
      obtain ⟨B, hB⟩ : ∃ B, B = 3 * y' + 1 + q' - (3 * y + 1 + q) := ⟨_, rfl⟩
      rw [← hA, ← hB] at hlt
      obtain ⟨⟨h1, h2⟩, h3, h4⟩ := hex_bound A B 2 (by omega) (by norm_num)
      interval_cases A <;> interval_cases B <;> omega
  steps c c' hc hc' := by
    obtain ⟨x, y, q, rfl, hq⟩ := site2 _ c hc
    obtain ⟨x', y', q', rfl, hq'⟩ := site2 _ c' hc'
    have hq2 : q = 0 ∨ q = 1 := by simp [honeycomb] at hq; omega
    have hq2' : q' = 0 ∨ q' = 1 := by simp [honeycomb] at hq'; omega
    simp only [hex2, at2, List.getD_cons_zero, List.getD_cons_succ]
    push_cast
    have hl : lab [x, y, q] = q := rfl
    have hl' : lab [x', y', q'] = q' := rfl
    rw [hl, hl']
    constructor
    · intro h
      have := hex_three _ _ h
      rcases hq2 with rfl | rfl <;> rcases hq2' with rfl | rfl
      · exfalso; omega
      · rw [show honeycombSteps 0 1 = [[0, 0], [-1, 0], [0, -1]] from rfl]
        simp only [List.mem_cons, List.not_mem_nil, or_false, exists_eq_or_imp, exists_eq_left, moved2]
        omega
      · rw [show honeycombSteps 1 0 = [[0, 0], [1, 0], [0, 1]] from rfl]
        simp only [List.mem_cons, List.not_mem_nil, or_false, exists_eq_or_imp, exists_eq_left, moved2]
        omega
      · exfalso; omega
    · intro h
      rcases hq2 with rfl | rfl <;> rcases hq2' with rfl | rfl
      · simp [honeycombSteps] at h
      · rw [show honeycombSteps 0 1 = [[0, 0], [-1, 0], [0, -1]] from rfl] at h
        simp only [List.mem_cons, List.not_mem_nil, or_false, exists_eq_or_imp, exists_eq_left, moved2] at h
        rcases h with h | h | h <;> obtain ⟨h1, h2⟩ := h <;>
          rw [show x' = x + (x' - x) by ring, show y' = y + (y' - y) by ring, h1, h2] <;> ring
      · rw [show honeycombSteps 1 0 = [[0, 0], [1, 0], [0, 1]] from rfl] at h
        simp only [List.mem_cons, List.not_mem_nil, or_false, exists_eq_or_imp, exists_eq_left, moved2] at h
        rcases h with h | h | h <;> obtain ⟨h1, h2⟩ := h <;>
          rw [show x' = x + (x' - x) by ring, show y' = y + (y' - y) by ring, h1, h2] <;> ring
      · simp [honeycombSteps] at h

/-- the steps to the four neighbours, two on each other sublattice. -/
def kagomeSteps (q q' : Int) : List (List Int) :=
  if q = 0 ∧ q' = 1 then [[0, 0], [1, -1]]
  else if q = 1 ∧ q' = 0 then [[0, 0], [-1, 1]]
  else if q = 0 ∧ q' = 2 then [[0, 0], [0, -1]]
  else if q = 2 ∧ q' = 0 then [[0, 0], [0, 1]]
  else if q = 1 ∧ q' = 2 then [[0, 0], [-1, 0]]
  else if q = 2 ∧ q' = 1 then [[0, 0], [1, 0]]
  else []

/-- twice the fractional coordinates of the sites. -/
def kagomeA (q : Int) : Int := if q = 1 then 0 else 1
/-- twice the fractional coordinates of the sites. -/
def kagomeB (q : Int) : Int := if q = 0 then 0 else 1

theorem kagome_pos (x y q : Int) (h0 : q = 0 ∨ q = 1 ∨ q = 2) :
    (2 : ℝ) * position kagome [x, y, q] 0 = ((2 * x + kagomeA q : Int) : ℝ) + ((2 * y + kagomeB q : Int) : ℝ) / 2
    ∧ (2 : ℝ) * position kagome [x, y, q] 1 = ((2 * y + kagomeB q : Int) : ℝ) * Real.sqrt (3 / 4) := by
  simp only [position, kagome, hexBasis, Fin.sum_univ_two]
  rw [sqrt34]
  rcases h0 with rfl | rfl | rfl <;> refine ⟨?_, ?_⟩ <;> simp [kagomeA, kagomeB] <;> ring

def kagomeForm : Form kagome 4 1 kagomeSteps where
  k := hex2 (fun x y q => 2 * x + kagomeA q) (fun x y q => 2 * y + kagomeB q)
  hN := by norm_num
  hk0 := by norm_num
  gap := by norm_num
  value c c' hc hc' := by
    have := value2 kagome 2 (fun x y q => 2 * x + kagomeA q) (fun x y q => 2 * y + kagomeB q) 3 (by
      intro x y q h0 h1
      exact_mod_cast kagome_pos x y q (by push_cast at h1; omega)) c c' hc hc'
    exact_mod_cast this
  least c c' hc hc' hne := by
    obtain ⟨x, y, q, rfl, hq⟩ := site2 _ c hc
    obtain ⟨x', y', q', rfl, hq'⟩ := site2 _ c' hc'
    have hq2 : q = 0 ∨ q = 1 ∨ q = 2 := by simp [kagome] at hq; omega
    have hq2' : q' = 0 ∨ q' = 1 ∨ q' = 2 := by simp [kagome] at hq'; omega
    simp only [hex2, at2, List.getD_cons_zero, List.getD_cons_succ]
    refine hex_pos _ _ ?_
    rintro ⟨h1, h2⟩
    apply hne
    rcases hq2 with rfl | rfl | rfl <;> rcases hq2' with rfl | rfl | rfl <;> simp [kagomeA, kagomeB] at h1 h2 ⊢ <;> omega
  steps c c' hc hc' := by
    obtain ⟨x, y, q, rfl, hq⟩ := site2 _ c hc
    obtain ⟨x', y', q', rfl, hq'⟩ := site2 _ c' hc'
    have hq2 : q = 0 ∨ q = 1 ∨ q = 2 := by simp [kagome] at hq; omega
    have hq2' : q' = 0 ∨ q' = 1 ∨ q' = 2 := by simp [kagome] at hq'; omega
    simp only [hex2, at2, List.getD_cons_zero, List.getD_cons_succ]
    push_cast
    rw [hex_one]
    have hl : lab [x, y, q] = q := rfl
    have hl' : lab [x', y', q'] = q' := rfl
    rw [hl, hl']
    rcases hq2 with rfl | rfl | rfl <;> rcases hq2' with rfl | rfl | rfl <;>
      simp [kagomeA, kagomeB, kagomeSteps, moved2] <;> omega

/-! ## C159 -/

theorem unit3 (x y z x' y' z' : Int) (h : UnitStep [x, y, z, 0] [x', y', z', 0]) :
    (x' - x = 1 ∧ y' - y = 0 ∧ z' - z = 0) ∨ (x' - x = 0 ∧ y' - y = 1 ∧ z' - z = 0) ∨ (x' - x = 0 ∧ y' - y = 0 ∧ z' - z = 1) := by
  simp only [UnitStep, List.cons.injEq, and_true, and_false, or_false] at h
  rcases h with ⟨h1, h2, h3⟩ | ⟨h1, ⟨h2, h3⟩ | ⟨h2, h3 | ⟨_, h3⟩⟩⟩
  · exact Or.inl ⟨by omega, by omega, by omega⟩
  · exact Or.inr (Or.inl ⟨by omega, by omega, by omega⟩)
  · exact Or.inr (Or.inr ⟨by omega, by omega, by omega⟩)
  · omega

theorem unit2 (x y x' y' : Int) (h : UnitStep [x, y, 0] [x', y', 0]) :
    (x' - x = 1 ∧ y' - y = 0) ∨ (x' - x = 0 ∧ y' - y = 1) := by
  simp only [UnitStep, List.cons.injEq, and_true, and_false, or_false] at h
  rcases h with ⟨h1, h2⟩ | ⟨h1, h2 | ⟨_, h2⟩⟩
  · exact Or.inl ⟨by omega, by omega⟩
  · exact Or.inr ⟨by omega, by omega⟩
  · omega

/-- on a lattice with one site per cell whose nearest neighbours include those along the basis vectors, each site has one. -/
theorem hall3 (S : Int → Int → List (List Int)) (hS : ∀ δ ∈ [[1, 0, 0], [-1, 0, 0], [0, 1, 0], [0, -1, 0], [0, 0, 1], [0, 0, -1]], δ ∈ S 0 0)
    (ext : List Nat) (pbc : List Bool) (hd : ext.length = 3) (hlen : ext.length = pbc.length) (hext : Extended ext pbc) :
    ∀ u ∈ inner ext 1, ∃ c ∈ shell ext pbc 1, ∃ δ ∈ S (lab u) (lab c), Moved u δ c := by
  intro u hu
  obtain ⟨c, hc, h⟩ := has_neighbour ext pbc 1 hlen hext u hu
  have hus := shell_site ext pbc 1 hlen u ((inner_subset ext pbc 1 hlen u).1 hu).1
  have hcs := shell_site ext pbc 1 hlen c hc
  rw [hd] at hus hcs
  obtain ⟨x, y, z, q, rfl, hq⟩ := site3 _ u hus
  obtain ⟨x', y', z', q', rfl, hq'⟩ := site3 _ c hcs
  have e1 : q = 0 := by push_cast at hq; omega
  have e2 : q' = 0 := by push_cast at hq'; omega
  subst e1 e2
  refine ⟨_, hc, ?_⟩
  have hl : ∀ a b c : Int, lab [a, b, c, 0] = 0 := fun _ _ _ => rfl
  rw [hl, hl]
  rcases h with h | h
  · rcases unit3 _ _ _ _ _ _ h with h | h | h <;> exact ⟨_, hS _ (by simp), (moved3 _ _ _ _ _ _ _ _ _ _ _).2 h⟩
  · rcases unit3 _ _ _ _ _ _ h with ⟨h1, h2, h3⟩ | ⟨h1, h2, h3⟩ | ⟨h1, h2, h3⟩
    · exact ⟨[-1, 0, 0], hS _ (by simp), (moved3 _ _ _ _ _ _ _ _ _ _ _).2 ⟨by omega, by omega, by omega⟩⟩
    · exact ⟨[0, -1, 0], hS _ (by simp), (moved3 _ _ _ _ _ _ _ _ _ _ _).2 ⟨by omega, by omega, by omega⟩⟩
    · exact ⟨[0, 0, -1], hS _ (by simp), (moved3 _ _ _ _ _ _ _ _ _ _ _).2 ⟨by omega, by omega, by omega⟩⟩

theorem hall2 (S : Int → Int → List (List Int)) (hS : ∀ δ ∈ [[1, 0], [-1, 0], [0, 1], [0, -1]], δ ∈ S 0 0)
    (ext : List Nat) (pbc : List Bool) (hd : ext.length = 2) (hlen : ext.length = pbc.length) (hext : Extended ext pbc) :
    ∀ u ∈ inner ext 1, ∃ c ∈ shell ext pbc 1, ∃ δ ∈ S (lab u) (lab c), Moved u δ c := by
  intro u hu
  obtain ⟨c, hc, h⟩ := has_neighbour ext pbc 1 hlen hext u hu
  have hus := shell_site ext pbc 1 hlen u ((inner_subset ext pbc 1 hlen u).1 hu).1
  have hcs := shell_site ext pbc 1 hlen c hc
  rw [hd] at hus hcs
  obtain ⟨x, y, q, rfl, hq⟩ := site2 _ u hus
  obtain ⟨x', y', q', rfl, hq'⟩ := site2 _ c hcs
  have e1 : q = 0 := by push_cast at hq; omega
  have e2 : q' = 0 := by push_cast at hq'; omega
  subst e1 e2
  refine ⟨_, hc, ?_⟩
  have hl : ∀ a b : Int, lab [a, b, 0] = 0 := fun _ _ => rfl
  rw [hl, hl]
  rcases h with h | h
  · rcases unit2 _ _ _ _ h with h | h <;> exact ⟨_, hS _ (by simp), (moved2 _ _ _ _ _ _ _ _).2 h⟩
  · rcases unit2 _ _ _ _ h with ⟨h1, h2⟩ | ⟨h1, h2⟩
    · exact ⟨[-1, 0], hS _ (by simp), (moved2 _ _ _ _ _ _ _ _).2 ⟨by omega, by omega⟩⟩
    · exact ⟨[0, -1], hS _ (by simp), (moved2 _ _ _ _ _ _ _ _).2 ⟨by omega, by omega⟩⟩

theorem relabel_mem (ext : List Nat) (nb : Nat) (u : List Int) (hu : u ∈ inner ext nb) (q : Int) (hq : q ∈ upto nb) :
    u.dropLast ++ [q] ∈ inner ext nb := by
  induction ext generalizing u with
  | nil =>
    obtain ⟨x, xs, rfl, hx, hxs⟩ := (mem_cart_cons _ _ _).1 hu
    rw [mem_cart_nil] at hxs
    subst hxs
    exact (mem_cart_cons _ _ _).2 ⟨q, [], rfl, hq, by simp [mem_cart_nil]⟩
  | cons e es ih =>
    obtain ⟨x, xs, rfl, hx, hxs⟩ := (mem_cart_cons _ _ _).1 hu
    have hn := inner_ne_nil es nb xs hxs
    rw [List.dropLast_cons_of_ne_nil hn]
    exact (mem_cart_cons _ _ _).2 ⟨x, _, rfl, hx, ih xs hxs⟩

theorem moved_relabel (u : List Int) (hu : u ≠ []) (q : Int) : Moved u (u.dropLast.map fun _ => 0) (u.dropLast ++ [q]) := by
  induction u with
  | nil => exact absurd rfl hu
  | cons x xs ih =>
    cases xs with
    | nil => simp [Moved]
    | cons y ys =>
      rw [List.dropLast_cons_of_ne_nil (by simp)]
      exact (moved_cons _ _ _ _ _ _).2 ⟨by simp, ih (by simp)⟩

/-- on a lattice with neighbours within the cell, each site has one. -/
theorem hall_cell (S : Int → Int → List (List Int)) (d nb : Nat) (hS : ∀ q ∈ upto nb, ∃ q' ∈ upto nb, List.replicate d 0 ∈ S q q')
    (ext : List Nat) (pbc : List Bool) (hd : ext.length = d) (hlen : ext.length = pbc.length) :
    ∀ u ∈ inner ext nb, ∃ c ∈ shell ext pbc nb, ∃ δ ∈ S (lab u) (lab c), Moved u δ c := by
  intro u hu
  obtain ⟨q', hq', h0⟩ := hS (lab u) (lab_mem ext nb u hu)
  have hm := relabel_mem ext nb u hu q' hq'
  refine ⟨_, ((inner_subset ext pbc nb hlen _).1 hm).1, _, ?_, moved_relabel u (inner_ne_nil ext nb u hu) q'⟩
  have hl : lab (u.dropLast ++ [q']) = q' := by simp [lab]
  have hlen2 : u.length = d + 1 := by rw [cart_length _ _ hu]; simp [hd]
  rw [hl]
  have : (u.dropLast.map fun _ => (0 : Int)) = List.replicate d 0 := by
    rw [List.map_const', List.length_dropLast, hlen2]; rfl
  rw [this]
  exact h0

/-- `BCC(extent, pbc)`: the eight nearest neighbours at distance `√3/2`. -/
theorem C159_bcc (atol : ℝ) (hatol : 0 ≤ atol) (ext : List Nat) (pbc : List Bool) (hd : ext.length = 3) (hp : pbc.length = 3)
    (hpos : ∀ e ∈ ext, 0 < e) (hext : Extended ext pbc) :
    ∃ L, mkGeom bcc atol ext pbc = .ok L ∧ NearestGraph bcc ext pbc L (Real.sqrt (3 / 4))
      ∧ ((∀ e ∈ ext, 3 ≤ e) → (∀ p ∈ pbc, p = true) → ∀ a < L.nNodes, degree L a = 8) := by
  obtain ⟨L, h1, h2, h3⟩ := bccForm.graph atol (le_cutoff bcc atol hatol 0 _ (by
    simp [bcc, Fin.sum_univ_three]; norm_num)) ext pbc hd (by omega) hpos (by simp [bcc])
    (by
      intro q q' δ hδ
      simp only [bccSteps, List.mem_cons, List.not_mem_nil, or_false] at hδ
      rcases hδ with rfl | rfl | rfl | rfl | rfl | rfl | rfl | rfl <;> exact ⟨by simp [hd], by decide⟩)
    (fun q q' => by rw [bccSteps]; decide)
    (fun q => by
      obtain ⟨a, b, c, rfl⟩ := List.length_eq_three.1 hd
      simp [bccSteps])
    (hall3 bccSteps (by decide) ext pbc hd (by omega) hext)
  refine ⟨L, h1, by simpa using h2, fun he hp a ha => ?_⟩
  rw [h3 he hp a _ (List.getElem?_eq_getElem ha)]
  rfl

/-- `FCC(extent, pbc)`: the twelve nearest neighbours at distance `√2/2`. -/
theorem C159_fcc (atol : ℝ) (hatol : 0 ≤ atol) (ext : List Nat) (pbc : List Bool) (hd : ext.length = 3) (hp : pbc.length = 3)
    (hpos : ∀ e ∈ ext, 0 < e) (hext : Extended ext pbc) :
    ∃ L, mkGeom fcc atol ext pbc = .ok L ∧ NearestGraph fcc ext pbc L (Real.sqrt (1 / 2))
      ∧ ((∀ e ∈ ext, 3 ≤ e) → (∀ p ∈ pbc, p = true) → ∀ a < L.nNodes, degree L a = 12) := by
  obtain ⟨L, h1, h2, h3⟩ := fccForm.graph atol (le_cutoff fcc atol hatol 0 _ (by
    simp [fcc, fccBasis, Fin.sum_univ_three]; norm_num)) ext pbc hd (by omega) hpos (by simp [fcc])
    (by
      intro q q' δ hδ
      simp only [fccSteps, List.mem_cons, List.not_mem_nil, or_false] at hδ
      rcases hδ with rfl | rfl | rfl | rfl | rfl | rfl | rfl | rfl | rfl | rfl | rfl | rfl <;>
        exact ⟨by simp [hd], by decide⟩)
    (fun q q' => by rw [fccSteps]; decide)
    (fun q => by
      obtain ⟨a, b, c, rfl⟩ := List.length_eq_three.1 hd
      simp [fccSteps])
    (hall3 fccSteps (by decide) ext pbc hd (by omega) hext)
  refine ⟨L, h1, ?_, fun he hp a ha => ?_⟩
  · have : Real.sqrt (((2 : Nat) : ℝ) / (4 : Nat)) = Real.sqrt (1 / 2) := by norm_num
    rw [← this]
    exact h2
  · rw [h3 he hp a _ (List.getElem?_eq_getElem ha)]
    rfl

theorem upto_cases2 (q : Int) (h : q ∈ upto 2) : q = 0 ∨ q = 1 := by
  rw [mem_upto] at h; push_cast at h; omega

theorem upto_cases3 (q : Int) (h : q ∈ upto 3) : q = 0 ∨ q = 1 ∨ q = 2 := by
  rw [mem_upto] at h; push_cast at h; omega

theorem upto_cases4 (q : Int) (h : q ∈ upto 4) : q = 0 ∨ q = 1 ∨ q = 2 ∨ q = 3 := by
  rw [mem_upto] at h; push_cast at h; omega

/-- `Diamond(extent, pbc)`: the four nearest neighbours at distance `√3/4`. -/
theorem C159_diamond (atol : ℝ) (hatol : 0 ≤ atol) (ext : List Nat) (pbc : List Bool) (hd : ext.length = 3) (hp : pbc.length = 3)
    (hpos : ∀ e ∈ ext, 0 < e) :
    ∃ L, mkGeom diamond atol ext pbc = .ok L ∧ NearestGraph diamond ext pbc L (Real.sqrt (3 / 16))
      ∧ ((∀ e ∈ ext, 3 ≤ e) → (∀ p ∈ pbc, p = true) → ∀ a < L.nNodes, degree L a = 4) := by
  obtain ⟨L, h1, h2, h3⟩ := diamondForm.graph atol (le_cutoff diamond atol hatol 0 _ (by
    simp [diamond, fccBasis, Fin.sum_univ_three]; norm_num)) ext pbc hd (by omega) hpos (by simp [diamond])
    (by
      intro q q' δ hδ
      unfold diamondSteps at hδ
      split_ifs at hδ
      · simp only [List.mem_cons, List.not_mem_nil, or_false] at hδ
        rcases hδ with rfl | rfl | rfl | rfl <;> exact ⟨by simp [hd], by decide⟩
      · simp only [List.mem_cons, List.not_mem_nil, or_false] at hδ
        rcases hδ with rfl | rfl | rfl | rfl <;> exact ⟨by simp [hd], by decide⟩
      · simp at hδ)
    (fun q q' => by unfold diamondSteps; split_ifs <;> decide)
    (fun q => by
      have e1 : ¬(q = 0 ∧ q = 1) := by omega
      have e2 : ¬(q = 1 ∧ q = 0) := by omega
      rw [diamondSteps, if_neg e1, if_neg e2]
      simp)
    (hall_cell diamondSteps 3 2 (by
      intro q hq
      rcases upto_cases2 q hq with rfl | rfl
      · exact ⟨1, by decide, by decide⟩
      · exact ⟨0, by decide, by decide⟩) ext pbc hd (by omega))
  refine ⟨L, h1, by simpa using h2, fun he hp a ha => ?_⟩
  have hu := List.getElem?_eq_getElem ha
  rw [h3 he hp a _ hu]
  have hm := (h2.sites _).1 (List.mem_of_getElem? hu)
  generalize L.basisCoords[a] = u at hm ⊢
  obtain ⟨a, b, c, rfl⟩ := List.length_eq_three.1 hd
  rcases u with _ | ⟨x, _ | ⟨y, _ | ⟨z, _ | ⟨q, _ | ⟨w, ws⟩⟩⟩⟩⟩ <;> simp at hm
  have : q = 0 ∨ q = 1 := by simp [diamond] at hm; omega
  rcases this with rfl | rfl <;> rfl

/-- `Pyrochlore(extent, pbc)`: the six nearest neighbours at distance `√2/4`. -/
theorem C159_pyrochlore (atol : ℝ) (hatol : 0 ≤ atol) (ext : List Nat) (pbc : List Bool) (hd : ext.length = 3)
    (hp : pbc.length = 3) (hpos : ∀ e ∈ ext, 0 < e) :
    ∃ L, mkGeom pyrochlore atol ext pbc = .ok L ∧ NearestGraph pyrochlore ext pbc L (Real.sqrt (1 / 8))
      ∧ ((∀ e ∈ ext, 3 ≤ e) → (∀ p ∈ pbc, p = true) → ∀ a < L.nNodes, degree L a = 6) := by
  have hcell : ∀ q, pyroCell q = (0, 0, 0) ∨ pyroCell q = (1, 0, 0) ∨ pyroCell q = (0, 1, 0) ∨ pyroCell q = (0, 0, 1) := by
    intro q; unfold pyroCell; split_ifs <;> simp
  obtain ⟨L, h1, h2, h3⟩ := (pyroForm.restrict).graph atol (le_cutoff pyrochlore atol hatol 0 _ (by
    simp [pyrochlore, fccBasis, Fin.sum_univ_three]; norm_num)) ext pbc hd (by omega) hpos (by simp [pyrochlore])
    (by
      intro q q' δ hδ
      obtain ⟨_, _, hδ⟩ := mem_restrict hδ
      unfold pyroSteps at hδ
      split_ifs at hδ
      · simp at hδ
      · simp only [List.mem_cons, List.not_mem_nil, or_false] at hδ
        rcases hδ with rfl | rfl
        · exact ⟨by simp [hd], by decide⟩
        · refine ⟨by simp [hd], ?_⟩
          rcases hcell q with h | h | h | h <;> rcases hcell q' with h' | h' | h' | h' <;> rw [h, h'] <;> decide)
    (fun q q' => by
      unfold restrict
      split_ifs with hr
      · unfold pyroSteps
        rcases upto_cases4 q hr.1 with rfl | rfl | rfl | rfl <;> rcases upto_cases4 q' hr.2 with rfl | rfl | rfl | rfl <;> decide
      · simp)
    (fun q => by
      intro h
      obtain ⟨_, _, h⟩ := mem_restrict h
      simp [pyroSteps] at h)
    (hall_cell _ 3 4 (by
      intro q hq
      rcases upto_cases4 q hq with rfl | rfl | rfl | rfl
      · exact ⟨1, by decide, by decide⟩
      · exact ⟨0, by decide, by decide⟩
      · exact ⟨0, by decide, by decide⟩
      · exact ⟨0, by decide, by decide⟩) ext pbc hd (by omega))
  refine ⟨L, h1, ?_, fun he hp a ha => ?_⟩
  · have : Real.sqrt (((8 : Nat) : ℝ) / (64 : Nat)) = Real.sqrt (1 / 8) := by norm_num
    rw [← this]
    exact h2
  have hu := List.getElem?_eq_getElem ha
  rw [h3 he hp a _ hu]
  have hm := (h2.sites _).1 (List.mem_of_getElem? hu)
  generalize L.basisCoords[a] = u at hm ⊢
  obtain ⟨a, b, c, rfl⟩ := List.length_eq_three.1 hd
  rcases u with _ | ⟨x, _ | ⟨y, _ | ⟨z, _ | ⟨q, _ | ⟨w, ws⟩⟩⟩⟩⟩ <;> simp at hm
  have : q = 0 ∨ q = 1 ∨ q = 2 ∨ q = 3 := by simp [pyrochlore] at hm; omega
  rcases this with rfl | rfl | rfl | rfl <;> rfl

/-- `Triangular(extent, pbc)`: the six nearest neighbours at distance 1. -/
theorem C159_triangular (atol : ℝ) (hatol : 0 ≤ atol) (ext : List Nat) (pbc : List Bool) (hd : ext.length = 2) (hp : pbc.length = 2)
    (hpos : ∀ e ∈ ext, 0 < e) (hext : Extended ext pbc) :
    ∃ L, mkGeom triangular atol ext pbc = .ok L ∧ NearestGraph triangular ext pbc L 1
      ∧ ((∀ e ∈ ext, 3 ≤ e) → (∀ p ∈ pbc, p = true) → ∀ a < L.nNodes, degree L a = 6) := by
  obtain ⟨L, h1, h2, h3⟩ := triangularForm.graph atol (le_cutoff triangular atol hatol 0 _ (by
    simp [triangular, hexBasis, Fin.sum_univ_two])) ext pbc hd (by omega) hpos (by simp [triangular])
    (by
      intro q q' δ hδ
      simp only [triangularSteps, List.mem_cons, List.not_mem_nil, or_false] at hδ
      rcases hδ with rfl | rfl | rfl | rfl | rfl | rfl <;> exact ⟨by simp [hd], by decide⟩)
    (fun q q' => by rw [triangularSteps]; decide)
    (fun q => by
      obtain ⟨a, b, rfl⟩ := List.length_eq_two.1 hd
      simp [triangularSteps])
    (hall2 triangularSteps (by decide) ext pbc hd (by omega) hext)
  refine ⟨L, h1, by simpa using h2, fun he hp a ha => ?_⟩
  rw [h3 he hp a _ (List.getElem?_eq_getElem ha)]
  rfl

/-- `Honeycomb(extent, pbc)`: the three nearest neighbours at distance `1/√3`. -/
theorem C159_honeycomb (atol : ℝ) (hatol : 0 ≤ atol) (ext : List Nat) (pbc : List Bool) (hd : ext.length = 2) (hp : pbc.length = 2)
    (hpos : ∀ e ∈ ext, 0 < e) :
    ∃ L, mkGeom honeycomb atol ext pbc = .ok L ∧ NearestGraph honeycomb ext pbc L (Real.sqrt (1 / 3))
      ∧ ((∀ e ∈ ext, 3 ≤ e) → (∀ p ∈ pbc, p = true) → ∀ a < L.nNodes, degree L a = 3) := by
  obtain ⟨L, h1, h2, h3⟩ := honeycombForm.graph atol (le_cutoff honeycomb atol hatol 0 _ (by
    simp [honeycomb, hexBasis, Fin.sum_univ_two]; norm_num)) ext pbc hd (by omega) hpos (by simp [honeycomb])
    (by
      intro q q' δ hδ
      unfold honeycombSteps at hδ
      split_ifs at hδ
      · simp only [List.mem_cons, List.not_mem_nil, or_false] at hδ
        rcases hδ with rfl | rfl | rfl <;> exact ⟨by simp [hd], by decide⟩
      · simp only [List.mem_cons, List.not_mem_nil, or_false] at hδ
        rcases hδ with rfl | rfl | rfl <;> exact ⟨by simp [hd], by decide⟩
      · simp at hδ)
    (fun q q' => by unfold honeycombSteps; split_ifs <;> decide)
    (fun q => by
      have e1 : ¬(q = 0 ∧ q = 1) := by omega
      have e2 : ¬(q = 1 ∧ q = 0) := by omega
      rw [honeycombSteps, if_neg e1, if_neg e2]
      simp)
    (hall_cell honeycombSteps 2 2 (by
      intro q hq
      rcases upto_cases2 q hq with rfl | rfl
      · exact ⟨1, by decide, by decide⟩
      · exact ⟨0, by decide, by decide⟩) ext pbc hd (by omega))
  refine ⟨L, h1, ?_, fun he hp a ha => ?_⟩
  · have : Real.sqrt (((3 : Nat) : ℝ) / (9 : Nat)) = Real.sqrt (1 / 3) := by norm_num
    rw [← this]
    exact h2
  have hu := List.getElem?_eq_getElem ha
  rw [h3 he hp a _ hu]
  have hm := (h2.sites _).1 (List.mem_of_getElem? hu)
  generalize L.basisCoords[a] = u at hm ⊢
  obtain ⟨a, b, rfl⟩ := List.length_eq_two.1 hd
  rcases u with _ | ⟨x, _ | ⟨y, _ | ⟨q, _ | ⟨w, ws⟩⟩⟩⟩ <;> simp at hm
  have : q = 0 ∨ q = 1 := by simp [honeycomb] at hm; omega
  rcases this with rfl | rfl <;> rfl

/-- `Kagome(extent, pbc)`: the four nearest neighbours at distance 1/2. -/
theorem C159_kagome (atol : ℝ) (hatol : 0 ≤ atol) (ext : List Nat) (pbc : List Bool) (hd : ext.length = 2) (hp : pbc.length = 2)
    (hpos : ∀ e ∈ ext, 0 < e) :
    ∃ L, mkGeom kagome atol ext pbc = .ok L ∧ NearestGraph kagome ext pbc L (1 / 2)
      ∧ ((∀ e ∈ ext, 3 ≤ e) → (∀ p ∈ pbc, p = true) → ∀ a < L.nNodes, degree L a = 4) := by
  obtain ⟨L, h1, h2, h3⟩ := kagomeForm.graph atol (le_cutoff kagome atol hatol 0 _ (by
    simp [kagome, hexBasis, Fin.sum_univ_two]; norm_num)) ext pbc hd (by omega) hpos (by simp [kagome])
    (by
      intro q q' δ hδ
      unfold kagomeSteps at hδ
      split_ifs at hδ <;> simp only [List.mem_cons, List.not_mem_nil, or_false] at hδ <;>
        rcases hδ with rfl | rfl <;> exact ⟨by simp [hd], by decide⟩)
    (fun q q' => by unfold kagomeSteps; split_ifs <;> decide)
    (fun q => by
      have e1 : ¬(q = 0 ∧ q = 1) := by omega
      have e2 : ¬(q = 1 ∧ q = 0) := by omega
      have e3 : ¬(q = 0 ∧ q = 2) := by omega
      have e4 : ¬(q = 2 ∧ q = 0) := by omega
      have e5 : ¬(q = 1 ∧ q = 2) := by omega
      have e6 : ¬(q = 2 ∧ q = 1) := by omega
      rw [kagomeSteps, if_neg e1, if_neg e2, if_neg e3, if_neg e4, if_neg e5, if_neg e6]
      simp)
    (hall_cell kagomeSteps 2 3 (by
      intro q hq
      rcases upto_cases3 q hq with rfl | rfl | rfl
      · exact ⟨1, by decide, by decide⟩
      · exact ⟨0, by decide, by decide⟩
      · exact ⟨0, by decide, by decide⟩) ext pbc hd (by omega))
  refine ⟨L, h1, ?_, fun he hp a ha => ?_⟩
  · have : Real.sqrt (((1 : Nat) : ℝ) / (4 : Nat)) = 1 / 2 := by
      rw [show ((1 : Nat) : ℝ) / (4 : Nat) = (1 / 2) ^ 2 by norm_num, Real.sqrt_sq (by norm_num)]
    rw [← this]
    exact h2
  have hu := List.getElem?_eq_getElem ha
  rw [h3 he hp a _ hu]
  have hm := (h2.sites _).1 (List.mem_of_getElem? hu)
  generalize L.basisCoords[a] = u at hm ⊢
  obtain ⟨a, b, rfl⟩ := List.length_eq_two.1 hd
  rcases u with _ | ⟨x, _ | ⟨y, _ | ⟨q, _ | ⟨w, ws⟩⟩⟩⟩ <;> simp at hm
  have : q = 0 ∨ q = 1 ∨ q = 2 := by simp [kagome] at hm; omega
  rcases this with rfl | rfl | rfl <;> rfl

/-- the hypotheses hold for a torus of 3 × 3 × 3 cells, and for a lattice with one open and one periodic axis. -/
example : Extended [3, 3, 3] [true, true, true] ∧ Extended [1, 4] [true, false] ∧ ¬ Extended [1, 1] [false, false] := by
  refine ⟨⟨(3, true), by simp, Or.inl rfl⟩, ⟨(1, true), by simp, Or.inl rfl⟩, ?_⟩
  rintro ⟨q, hq, h⟩
  simp at hq
  subst hq
  simp at h

/-- the pyrochlore torus of 3 × 3 × 3 cells has 108 sites with six neighbours each (default tolerance). -/
example : ∃ L, mkGeom pyrochlore (1 / 100000) [3, 3, 3] [true, true, true] = .ok L ∧ L.nNodes = 108
    ∧ ∀ a < 108, degree L a = 6 := by
  obtain ⟨L, h1, h2, h3⟩ := C159_pyrochlore (1 / 100000) (by norm_num) [3, 3, 3] [true, true, true] rfl rfl (by decide)
  have hn : L.nNodes = 108 := by rw [h2.nodes]; rfl
  exact ⟨L, h1, hn, fun a ha => h3 (by decide) (by decide) a (by omega)⟩

end Verif.CommonLat
