import Mathlib.Algebra.BigOperators.Group.List.Basic
import Verif.Props.SpaceGroup

/-! C86 and C127: for which lattices the FFT layers can be set up. -/

namespace Verif.Grp
open Verif.Hilbert (Err)

/-- number of cells along the axes with the given kind of boundary. -/
def cellsAlong (periodic : Bool) (shape : List Nat) (pbc : List Bool) : Nat :=
  ((shape.zip pbc).map fun p => if p.2 = periodic then p.1 else 1).prod

theorem cellsAlong_mul (shape : List Nat) (pbc : List Bool) (h : pbc.length = shape.length) :
    cellsAlong true shape pbc * cellsAlong false shape pbc = shape.prod := by
  induction shape generalizing pbc with
  | nil => simp [cellsAlong]
  | cons L Ls ih =>
    cases pbc with
    | nil => simp at h
    | cons b bs =>
      have h2 := ih bs (by simpa using h)
      rw [List.prod_cons, ← h2]
      unfold cellsAlong
      cases b <;> simp <;> ring

theorem transList_length (one : List Int) (n k : Nat) : (transList one n k).length = k := by
  induction k with
  | zero => rfl
  | succ k ih =>
    cases k with
    | zero => rfl
    | succ k => simp only [transList, List.length_append, List.length_singleton]; rw [ih]

theorem foldl_matmul_length (f : Nat → List (List Int)) (as : List Nat) (g : List (List Int)) :
    (as.foldl (fun g a => matmul g (f a)) g).length = g.length * (as.map fun a => (f a).length).prod := by
  induction as generalizing g with
  | nil => simp
  | cons a as ih => simp only [List.foldl_cons, ih, matmul_length, List.map_cons, List.prod_cons, Nat.mul_assoc]

theorem translations_length (shape : List Nat) (pbc : List Bool) (spc : Nat) (hne : shape ≠ [])
    (h : pbc.length = shape.length) :
    ∃ T, translationGroup shape pbc spc = .ok T ∧ T.length = cellsAlong true shape pbc := by
  cases shape with
  | nil => exact absurd rfl hne
  | cons L Ls =>
    refine ⟨_, rfl, ?_⟩
    rw [foldl_matmul_length]
    have e1 : (axisTranslations (L :: Ls) pbc spc 0).length
        * ((List.range' 1 Ls.length).map fun a => (axisTranslations (L :: Ls) pbc spc a).length).prod
        = ((List.range (L :: Ls).length).map fun a => (axisTranslations (L :: Ls) pbc spc a).length).prod := by
      rw [List.length_cons, List.range_succ_eq_map, List.map_cons, List.prod_cons]
      congr 2
      rw [List.map_map, List.range'_eq_map_range, List.map_map]
      apply List.map_congr_left
      intro a _
      simp [Nat.add_comm]
    rw [e1]
    unfold cellsAlong
    congr 1
    apply List.ext_getElem
    · simp only [List.length_map, List.length_range, List.length_zip]
      omega
    · intro i h1 h2
      have hi : i < (L :: Ls).length := by simpa using h1
      simp only [List.getElem_map, List.getElem_range, List.getElem_zip]
      unfold axisTranslations
      have hp : pbc.getD i false = pbc[i]'(by omega) := by
        simp [List.getD, List.getElem?_eq_getElem (show i < pbc.length by omega)]
      have hs : (L :: Ls).getD i 0 = (L :: Ls)[i] := by
        simp [List.getD, List.getElem?_eq_getElem hi]
      rw [hp, hs]
      cases hb : pbc[i]'(by omega)
      · simp
      · simp [transList_length]

/-- C127, the part that holds.  Full statement: the FFT layers can be set up for every lattice (refuted for open
    chains by `C127_open_chain_refuted`).  Proved: for any number of axes with any boundaries and any point group
    the space group has one element per translation along the periodic axes and point operation, and the layers can
    be set up exactly if the number of cells along the open axes divides the order of the point group; then there
    is one kernel for every (number of cells along the open axes) point operations. -/
theorem C127_setup_partial (shape : List Nat) (pbc : List Bool) (spc : Nat) (P : List (List Int)) (hne : shape ≠ [])
    (hlen : pbc.length = shape.length) (hpos : ∀ L ∈ shape, 0 < L) :
    ∃ sg, spaceGroup shape pbc spc P = .ok sg
      ∧ sg.length = cellsAlong true shape pbc * P.length
      ∧ ((∃ m, fftSetup sg.length shape.prod = .ok m) ↔ cellsAlong false shape pbc ∣ P.length)
      ∧ ∀ m, fftSetup sg.length shape.prod = .ok m → cellsAlong false shape pbc * m = P.length := by
  obtain ⟨T, h1, h2⟩ := translations_length shape pbc spc hne hlen
  have hmul := cellsAlong_mul shape pbc hlen
  have hprod : 0 < shape.prod := List.prod_pos fun L hL => hpos L hL
  have hc : 0 < cellsAlong true shape pbc := by
    rcases Nat.eq_zero_or_pos (cellsAlong true shape pbc) with h0 | h0
    · rw [h0, Nat.zero_mul] at hmul; omega
    · exact h0
  have hl : (matmul T P).length = cellsAlong true shape pbc * P.length := by rw [matmul_length, h2]
  refine ⟨matmul T P, by rw [spaceGroup, h1], hl, ?_, ?_⟩
  · rw [C86_setup _ _ hprod, hl, ← hmul]
    exact Nat.mul_dvd_mul_iff_left hc
  · intro m hm
    unfold fftSetup at hm
    dsimp only at hm
    by_cases e : shape.prod * ((matmul T P).length / shape.prod) = (matmul T P).length
    · rw [if_pos e, Except.ok.injEq] at hm
      rw [hm, hl, ← hmul, Nat.mul_assoc] at e
      exact Nat.eq_of_mul_eq_mul_left hc e
    · rw [if_neg e] at hm; cases hm

/-- C86: on every periodic lattice the layers can be set up, with one kernel for each point operation. -/
theorem C86_periodic (shape : List Nat) (spc : Nat) (P : List (List Int)) (hne : shape ≠ []) (hpos : ∀ L ∈ shape, 0 < L) :
    ∃ sg, spaceGroup shape (shape.map fun _ => true) spc P = .ok sg ∧ fftSetup sg.length shape.prod = .ok P.length := by
  obtain ⟨sg, h1, _, h3, h4⟩ := C127_setup_partial shape (shape.map fun _ => true) spc P hne (by simp) hpos
  have ho : cellsAlong false shape (shape.map fun _ => true) = 1 := by
    unfold cellsAlong
    apply List.prod_eq_one
    intro x hx
    obtain ⟨p, hp, rfl⟩ := List.mem_map.1 hx
    have h2 := (List.of_mem_zip (a := p.1) (b := p.2) hp).2
    obtain ⟨_, _, h2⟩ := List.mem_map.1 h2
    rw [if_neg (by rw [← h2]; decide)]
  rw [ho] at h3 h4
  obtain ⟨m, hm⟩ := h3.2 (one_dvd _)
  have := h4 m hm
  rw [Nat.one_mul] at this
  exact ⟨sg, h1, by rw [hm, this]⟩

/-- a periodic 2 × 3 lattice, and one with an open axis of two cells, with a point group of two elements. -/
example : ∃ sg, spaceGroup [2, 3] [true, true] 1 [arange 6, arange 6] = .ok sg ∧ fftSetup sg.length 6 = .ok 2 :=
  C86_periodic [2, 3] 1 [arange 6, arange 6] (by decide) (by decide)

example : ∃ sg, spaceGroup [2, 3] [false, true] 1 [arange 6, arange 6] = .ok sg ∧ ∃ m, fftSetup sg.length 6 = .ok m := by
  obtain ⟨sg, h1, _, h3, _⟩ := C127_setup_partial [2, 3] [false, true] 1 [arange 6, arange 6] (by decide) rfl (by decide)
  exact ⟨sg, h1, h3.2 (by decide)⟩

end Verif.Grp
