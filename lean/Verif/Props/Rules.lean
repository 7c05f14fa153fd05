import Verif.Props.Metropolis
import Mathlib.Data.List.Sort

/-! C44 (instances), C45, C53: the transition rules. -/

namespace Verif.Metro

open Verif.Markov MeasureTheory Finset
open Verif.Flip (jaxGet jaxSet jaxIdx jaxGet_nat jaxSet_nat)

set_option linter.unusedSectionVars false

/-! ### local moves -/

theorem otherLocal_lt (ls : List Int) (hs : ls.Pairwise (· < ·)) (p r : Nat) (hp : p < ls.length)
    (hr : r < p) : otherLocal ls r ls[p] = ls[r] := by
  have h : ls[r] < ls[p] := List.pairwise_iff_getElem.1 hs r p (by omega) hp hr
  have hr' : r < ls.length := by omega
  simp only [otherLocal, List.getD_eq_getElem?_getD, List.getElem?_eq_getElem hr', Option.getD_some]
  rw [if_neg (by simpa using h)]
  simp [hr']

theorem otherLocal_ge (ls : List Int) (hs : ls.Pairwise (· < ·)) (p r : Nat) (hp : p < ls.length)
    (hr : p ≤ r) (hr' : r + 1 < ls.length) : otherLocal ls r ls[p] = ls[r + 1] := by
  have h : ls[p] ≤ ls[r] := by
    rcases Nat.eq_or_lt_of_le hr with h | h
    · subst h; exact le_refl _
    · exact (List.pairwise_iff_getElem.1 hs p r hp (by omega) h).le
  have h1 : r < ls.length := by omega
  simp only [otherLocal, List.getD_eq_getElem?_getD, List.getElem?_eq_getElem h1, Option.getD_some]
  rw [if_pos (by simpa using h)]
  simp [hr']

theorem sorted_inj {ls : List Int} (hs : ls.Pairwise (· < ·)) {i j : Nat} (hi : i < ls.length)
    (hj : j < ls.length) (h : ls[i] = ls[j]) : i = j := by
  rcases Nat.lt_trichotomy i j with hl | hl | hl
  · have := List.pairwise_iff_getElem.1 hs i j hi hj hl; omega
  · exact hl
  · have := List.pairwise_iff_getElem.1 hs j i hj hi hl; omega

/-- every other local value is reached by exactly one draw. -/
theorem otherLocal_unique (ls : List Int) (hs : ls.Pairwise (· < ·)) (x y : Int) (hx : x ∈ ls)
    (hy : y ∈ ls) (hxy : x ≠ y) :
    ∃ r, r < ls.length - 1 ∧ otherLocal ls r x = y ∧
      ∀ r', r' < ls.length - 1 → otherLocal ls r' x = y → r' = r := by
  obtain ⟨p, hp, rfl⟩ := List.getElem_of_mem hx
  obtain ⟨q, hq, rfl⟩ := List.getElem_of_mem hy
  have hpq : p ≠ q := fun h => hxy (by subst h; rfl)
  have key : ∀ r', r' < ls.length - 1 → otherLocal ls r' ls[p] = ls[q] →
      (r' < p ∧ r' = q) ∨ (p ≤ r' ∧ r' + 1 = q) := by
    intro r' hr' h
    by_cases hlt : r' < p
    · rw [otherLocal_lt ls hs p r' hp hlt] at h
      exact Or.inl ⟨hlt, sorted_inj hs (by omega) hq h⟩
    · rw [otherLocal_ge ls hs p r' hp (by omega) (by omega)] at h
      exact Or.inr ⟨by omega, sorted_inj hs (by omega) hq h⟩
  rcases Nat.lt_or_gt_of_ne hpq with h | h
  · refine ⟨q - 1, by omega, ?_, ?_⟩
    · rw [otherLocal_ge ls hs p (q - 1) hp (by omega) (by omega)]
      congr 1; omega
    · intro r' hr' e
      rcases key r' hr' e with h' | h' <;> omega
  · refine ⟨q, by omega, otherLocal_lt ls hs p q hp h, ?_⟩
    intro r' hr' e
    rcases key r' hr' e with h' | h' <;> omega

theorem otherLocal_mem (ls : List Int) (hs : ls.Pairwise (· < ·)) (x : Int) (hx : x ∈ ls) (r : Nat)
    (hr : r < ls.length - 1) : otherLocal ls r x ∈ ls ∧ otherLocal ls r x ≠ x := by
  obtain ⟨p, hp, rfl⟩ := List.getElem_of_mem hx
  by_cases hlt : r < p
  · rw [otherLocal_lt ls hs p r hp hlt]
    exact ⟨List.getElem_mem _, fun h => by have := sorted_inj hs (by omega) hp h; omega⟩
  · rw [otherLocal_ge ls hs p r hp (by omega) (by omega)]
    exact ⟨List.getElem_mem _, fun h => by have := sorted_inj hs (by omega) hp h; omega⟩

open Classical in
/-- number of draws leading from `σ` to `τ` by changing site `i`. -/
theorem local_count (ls : List Int) (hs : ls.Pairwise (· < ·)) (N : Nat) (σ τ : List Int)
    (hσ : σ.length = N ∧ ∀ v ∈ σ, v ∈ ls) (hτ : τ.length = N ∧ ∀ v ∈ τ, v ∈ ls) (i : Fin N) :
    (univ.filter fun r : Fin (ls.length - 1) => localNumpyRow ls i r σ = τ).card
      = if σ.getD i 0 ≠ τ.getD i 0 ∧ ∀ (j : Nat), j ≠ i → σ[j]? = τ[j]? then 1 else 0 := by
  have hi1 : (i : Nat) < σ.length := by have := i.2; omega
  have hi2 : (i : Nat) < τ.length := by have := i.2; omega
  have g1 : σ.getD i 0 = σ[(i : Nat)] := by simp [hi1]
  have g2 : τ.getD i 0 = τ[(i : Nat)] := by simp [hi2]
  have hrow : ∀ r, localNumpyRow ls i r σ = τ ↔
      otherLocal ls r σ[(i : Nat)] = τ[(i : Nat)] ∧ ∀ (j : Nat), j ≠ i → σ[j]? = τ[j]? := by
    intro r
    simp only [localNumpyRow, g1]
    constructor
    · intro h
      refine ⟨?_, fun j hj => ?_⟩
      · have := congrArg (fun l : List Int => l[(i : Nat)]?) h
        simpa [hi1, hi2] using this
      · have := congrArg (fun l : List Int => l[j]?) h
        rw [← this, List.getElem?_set_ne (Ne.symm hj)]
    · rintro ⟨h1, h2⟩
      apply List.ext_getElem?
      intro j
      by_cases hj : j = i
      · subst hj
        rw [List.getElem?_set_self hi1, List.getElem?_eq_getElem hi2, h1]
      · rw [List.getElem?_set_ne (Ne.symm hj), h2 j hj]
  rw [g1, g2]
  by_cases hc : σ[(i : Nat)] ≠ τ[(i : Nat)] ∧ ∀ (j : Nat), j ≠ i → σ[j]? = τ[j]?
  · rw [if_pos hc, Finset.card_eq_one]
    obtain ⟨r, hr, h1, h2⟩ := otherLocal_unique ls hs _ _ (hσ.2 _ (List.getElem_mem hi1))
      (hτ.2 _ (List.getElem_mem hi2)) hc.1
    refine ⟨⟨r, hr⟩, ?_⟩
    ext r'
    simp only [Finset.mem_filter, Finset.mem_univ, true_and, Finset.mem_singleton]
    rw [hrow]
    constructor
    · rintro ⟨h, _⟩
      exact Fin.ext (h2 r' r'.2 h)
    · rintro rfl
      exact ⟨h1, hc.2⟩
  · rw [if_neg hc, Finset.card_eq_zero]
    ext r'
    simp only [Finset.mem_filter, Finset.mem_univ, true_and, Finset.notMem_empty, iff_false]
    rw [hrow]
    rintro ⟨h, h'⟩
    refine hc ⟨?_, h'⟩
    rw [← h]
    exact (otherLocal_mem ls hs _ (hσ.2 _ (List.getElem_mem hi1)) r' r'.2).2.symm

open Classical in
/-- The local rule with sorted local values meets the conditions of detailed balance: site and new
    value uniform, no correction. -/
theorem C44_local_balanced (ls : List Int) (hs : ls.Pairwise (· < ·)) (h2 : 2 ≤ ls.length) (N : Nat)
    (hN : 0 < N) (S : Finset (List Int))
    (hS : ∀ σ, σ ∈ S ↔ σ.length = N ∧ ∀ v ∈ σ, v ∈ ls) :
    Balanced S (fun _ _ => 1 / (Fintype.card (Fin N × Fin (ls.length - 1)) : ℝ))
      (fun d : Fin N × Fin (ls.length - 1) => localNumpyRow ls d.1 d.2) (fun _ _ => none) := by
  have : Nonempty (Fin N × Fin (ls.length - 1)) := ⟨(⟨0, hN⟩, ⟨0, by omega⟩)⟩
  refine balanced_of_symm S _ ?_ ?_
  · intro σ hσ d
    obtain ⟨hl, hv⟩ := (hS σ).1 hσ
    refine (hS _).2 ⟨by simp [localNumpyRow, hl], ?_⟩
    intro v hv'
    have hi : (d.1 : Nat) < σ.length := by have := d.1.2; omega
    rcases List.mem_or_eq_of_mem_set hv' with h | h
    · exact hv v h
    · rw [h]
      refine (otherLocal_mem ls hs _ ?_ _ d.2.2).1
      rw [List.getD_eq_getElem?_getD, List.getElem?_eq_getElem hi]
      exact hv _ (List.getElem_mem hi)
  · intro σ hσ τ hτ _
    have hcount : ∀ σ τ : List Int, σ ∈ S → τ ∈ S →
        (univ.filter fun d : Fin N × Fin (ls.length - 1) => localNumpyRow ls d.1 d.2 σ = τ).card
        = ∑ i : Fin N, if σ.getD i 0 ≠ τ.getD i 0 ∧ ∀ (j : Nat), j ≠ i → σ[j]? = τ[j]? then 1 else 0 := by
      intro σ τ hσ hτ
      rw [Finset.card_filter, Fintype.sum_prod_type]
      refine Finset.sum_congr rfl fun i _ => ?_
      rw [← local_count ls hs N σ τ ((hS σ).1 hσ) ((hS τ).1 hτ) i, Finset.card_filter]
    rw [hcount σ τ hσ hτ, hcount τ σ hτ hσ]
    refine Finset.sum_congr rfl fun i _ => ?_
    congr 1
    rw [eq_iff_iff]
    constructor
    · rintro ⟨h, h'⟩; exact ⟨Ne.symm h, fun j hj => (h' j hj).symm⟩
    · rintro ⟨h, h'⟩; exact ⟨Ne.symm h, fun j hj => (h' j hj).symm⟩

example := C44_local_balanced [-1, 1] (by decide) (by decide) 1 (by decide) {[1], [-1]} (by
  intro σ
  rcases σ with _ | ⟨a, _ | ⟨b, l⟩⟩ <;> simp [or_comm])

/-- The Metropolis chain with local moves samples `|psi|^pow`: any number of sweeps is reversible and
    leaves the density stationary. -/
theorem C44_local (ls : List Int) (hs : ls.Pairwise (· < ·)) (h2 : 2 ≤ ls.length) (N : Nat)
    (hN : 0 < N) (S : Finset (List Int))
    (hS : ∀ σ, σ ∈ S ↔ σ.length = N ∧ ∀ v ∈ σ, v ∈ ls) (pow : Nat) (logPsi : List Int → ℝ)
    (nSweeps : Nat) :
    let P := kpow S (kernel (fun _ _ => 1 / (Fintype.card (Fin N × Fin (ls.length - 1)) : ℝ))
      (step (fun σ => pow * logPsi σ)
        (fun d : Fin N × Fin (ls.length - 1) => localNumpyRow ls d.1 d.2) (fun _ _ => none))) nSweeps
    Stochastic S P ∧ Reversible S (fun σ => Real.exp (logPsi σ) ^ pow) P ∧
      Stationary S (fun σ => Real.exp (logPsi σ) ^ pow) P := by
  have h := C44_stationary S _ _ _ (fun σ => pow * logPsi σ)
    (C44_local_balanced ls hs h2 N hN S hS) nSweeps
  simpa only [Real.exp_nat_mul] using h

example := C44_local [-1, 1] (by decide) (by decide) 1 (by decide) {[1], [-1]} (by
  intro σ
  rcases σ with _ | ⟨a, _ | ⟨b, l⟩⟩ <;> simp [or_comm]) 2 (fun σ => (σ.sum : ℝ)) 4

theorem floor_set (m k : Nat) (hk : k < m) :
    {u : ℝ | (0 ≤ u ∧ u < 1) ∧ ⌊u * m⌋ = (k : Int)} = Set.Ico ((k : ℝ) / m) ((k + 1 : ℝ) / m) := by
  have hm : (0 : ℝ) < m := by exact_mod_cast (by omega : 0 < m)
  ext u
  simp only [Set.mem_ofPred_eq, Set.mem_Ico, Int.floor_eq_iff, Int.cast_natCast]
  rw [div_le_iff₀ hm, lt_div_iff₀ hm]
  constructor
  · rintro ⟨_, h⟩; exact h
  · rintro ⟨h1, h2⟩
    refine ⟨⟨?_, ?_⟩, h1, h2⟩
    · by_contra hc
      push Not at hc
      have h0 : (0 : ℝ) ≤ k := by positivity
      have := mul_neg_of_neg_of_pos hc hm
      linarith
    · have h3 : u * m < 1 * m := by
        have : (k : ℝ) + 1 ≤ m := by exact_mod_cast hk
        linarith
      exact lt_of_mul_lt_mul_right h3 hm.le

/-- the jax flips draw the new value by `⌊u * m⌋`: every integer below `m` has probability `1/m`. -/
theorem C44_floor_uniform (m k : Nat) (hk : k < m) :
    (volume {u : ℝ | (0 ≤ u ∧ u < 1) ∧ ⌊u * m⌋ = (k : Int)}).toReal = 1 / m := by
  rw [floor_set m k hk, Real.volume_Ico, ENNReal.toReal_ofReal]
  · rw [← sub_div, add_sub_cancel_left]
  · rw [← sub_div, add_sub_cancel_left]; positivity

example := C44_floor_uniform 5 3 (by decide)

theorem fockValues_getD (n r : Nat) (hr : r ≤ n) : (Verif.Flip.fockValues n).getD r 0 = r := by
  simp only [Verif.Flip.fockValues, List.getD_eq_getElem?_getD, List.getElem?_map]
  rw [List.getElem?_range (by omega)]; rfl

theorem spinValues_getD (t r : Nat) (hr : r ≤ t) :
    (Verif.Flip.spinValues t).getD r 0 = -(t : Int) + 2 * r := by
  simp only [Verif.Flip.spinValues, List.getD_eq_getElem?_getD, List.getElem?_map]
  rw [List.getElem?_range (by omega)]; rfl

/-- The jax flip of a Fock space is the local rule's move with draw `⌊u * n_max⌋`. -/
theorem C44_fock_flip (n : Nat) (hn : 0 < n) (d : Verif.Flip.Draw) (hd : d.Valid) (x : Int) :
    Verif.Flip.fockLocal n d x
      = otherLocal (Verif.Flip.fockValues n) ⌊d.uniform * n⌋.toNat x := by
  obtain ⟨h0, h1⟩ := Verif.Flip.floor_range hn hd.nonneg hd.lt_one
  have e : ((⌊d.uniform * n⌋.toNat : Nat) : Int) = ⌊d.uniform * n⌋ := Int.toNat_of_nonneg h0
  simp only [Verif.Flip.fockLocal, otherLocal]
  rw [if_neg (by omega), fockValues_getD n ⌊d.uniform * n⌋.toNat (by omega), e]
  by_cases hx : ⌊d.uniform * n⌋ ≥ x
  · rw [if_pos hx, if_pos hx, fockValues_getD n _ (by omega)]; push_cast; rw [e]
  · rw [if_neg hx, if_neg hx, fockValues_getD n _ (by omega)]; simp [e]

/-- The jax flip of a spin space is the local rule's move with draw `⌊u * (n_states - 1)⌋`. -/
theorem C44_spin_flip (t : Nat) (ht : 0 < t) (d : Verif.Flip.Draw) (hd : d.Valid) (x : Int) :
    Verif.Flip.spinLocal t d x
      = otherLocal (Verif.Flip.spinValues t) ⌊d.uniform * t⌋.toNat x := by
  obtain ⟨h0, h1⟩ := Verif.Flip.floor_range ht hd.nonneg hd.lt_one
  have e : ((⌊d.uniform * t⌋.toNat : Nat) : Int) = ⌊d.uniform * t⌋ := Int.toNat_of_nonneg h0
  simp only [Verif.Flip.spinLocal, otherLocal]
  rw [spinValues_getD t ⌊d.uniform * t⌋.toNat (by omega), e]
  by_cases hx : ⌊d.uniform * t⌋ * 2 - t ≥ x
  · rw [if_pos hx, if_pos (by omega), spinValues_getD t _ (by omega)]; push_cast; rw [e]; ring
  · rw [if_neg hx, if_neg (by omega), spinValues_getD t _ (by omega)]; push_cast; rw [e]; ring

/-- Spin 1/2 flips the sign, the only other value. -/
theorem C44_spin_half_flip (d : Verif.Flip.Draw) (x : Int) (hx : x = -1 ∨ x = 1) :
    Verif.Flip.spinHalfLocal d x = otherLocal [-1, 1] 0 x := by
  rcases hx with rfl | rfl <;> rfl

example := C44_spin_half_flip ⟨0, 0⟩ (-1) (Or.inl rfl)

/-- A CustomHilbert flip is the same move (the new value is taken at random position
    `randint (m-1)`). -/
theorem C44_custom_flip (ls : List Int) (h2 : 2 ≤ ls.length) (d : Verif.Flip.Draw) (hd : d.Valid)
    (x : Int) :
    Verif.Flip.customLocal ls d x = otherLocal ls (d.randint (ls.length - 1)) x := by
  have hr := hd.randint_lt (ls.length - 1) (by omega)
  have hr' : d.randint (ls.length - 1) < ls.length := by omega
  simp only [Verif.Flip.customLocal, otherLocal]
  rw [jaxGet_nat ls _ hr']
  have hg : ls.getD (d.randint (ls.length - 1)) 0 = ls[d.randint (ls.length - 1)] := by simp [hr']
  rw [hg]
  by_cases hx : ls[d.randint (ls.length - 1)] ≥ x
  · have hr1 : d.randint (ls.length - 1) + 1 < ls.length := by omega
    rw [if_pos hx, if_pos hx]
    have := jaxGet_nat ls (d.randint (ls.length - 1) + 1) hr1
    push_cast at this
    rw [this]; simp [hr1]
  · rw [if_neg hx, if_neg hx, add_zero, jaxGet_nat ls _ hr']; simp [hr']

/-- the row update of jax (`flip_state`) at site `i` is that of the local rule. -/
theorem C44_flip_row (f : Verif.Flip.Draw → Int → Int) (ls : List Int) (d : Verif.Flip.Draw) (r : Nat)
    (σ : List Int) (i : Nat) (hi : i < σ.length) (hf : f d σ[i] = otherLocal ls r σ[i]) :
    (Verif.Flip.flipAt f d σ i).1 = localNumpyRow ls i r σ := by
  simp only [Verif.Flip.flipAt, localNumpyRow]
  rw [jaxGet_nat σ i hi, jaxSet_nat σ i _ hi, hf]
  simp [hi]

/-! ### unsorted local values -/

theorem kernel_refute_zero (w : List Int → Unit → ℝ) (stp : Unit → ℝ → List Int → List Int)
    (x y : List Int) (h : ∀ u, stp () u x ≠ y) : kernel w stp x y = 0 := by
  simp [kernel, h]

/-- With local values that are not in increasing order (allowed by `CustomHilbert`) the local moves
    are not reversible: from [-1] the chain never leaves, from [1] it does. -/
theorem C102_local_unsorted_refuted :
    ¬ ∀ (ls : List Int), ls.Nodup → 2 ≤ ls.length → ∀ (logPsi : List Int → ℝ),
      Reversible ({[1], [-1]} : Finset (List Int)) (fun σ => Real.exp (logPsi σ))
        (kernel (fun _ _ => 1 / (Fintype.card (Fin 1 × Fin (ls.length - 1)) : ℝ))
          (step logPsi (fun d : Fin 1 × Fin (ls.length - 1) => localNumpyRow ls d.1 d.2)
            (fun _ _ => none))) := by
  intro h
  have h1 := h [1, -1] (by decide) (by decide) (fun _ => 0) [1] (by simp) [-1] (by simp)
  have hr : ∀ (σ : List Int) (d : Fin 1 × Fin 1), σ = [1] ∨ σ = [-1] →
      localNumpyRow [1, -1] d.1 d.2 σ = [-1] := by
    intro σ d hσ
    have e1 : d.1 = 0 := Subsingleton.elim _ _
    have e2 : d.2 = 0 := Subsingleton.elim _ _
    rw [e1, e2]
    rcases hσ with rfl | rfl <;> rfl
  have ka := kernel_offdiag ({[1], [-1]} : Finset (List Int))
    (fun _ _ => 1 / (Fintype.card (Fin 1 × Fin 1) : ℝ))
    (fun d : Fin 1 × Fin 1 => localNumpyRow [1, -1] d.1 d.2) (fun _ _ => none) (fun _ => 0)
    (fun _ _ => 0) (fun _ _ _ _ => rfl) [1] [-1] (by simp) (by decide)
  have kb := kernel_offdiag ({[1], [-1]} : Finset (List Int))
    (fun _ _ => 1 / (Fintype.card (Fin 1 × Fin 1) : ℝ))
    (fun d : Fin 1 × Fin 1 => localNumpyRow [1, -1] d.1 d.2) (fun _ _ => none) (fun _ => 0)
    (fun _ _ => 0) (fun _ _ _ _ => rfl) [-1] [1] (by simp) (by decide)
  have ea : proposal (fun _ _ => 1 / (Fintype.card (Fin 1 × Fin 1) : ℝ))
      (fun d : Fin 1 × Fin 1 => localNumpyRow [1, -1] d.1 d.2) [1] [-1] = 1 := by
    simp only [proposal, hr [1] _ (Or.inl rfl)]; simp
  have eb : proposal (fun _ _ => 1 / (Fintype.card (Fin 1 × Fin 1) : ℝ))
      (fun d : Fin 1 × Fin 1 => localNumpyRow [1, -1] d.1 d.2) [-1] [1] = 0 := by
    simp only [proposal, hr [-1] _ (Or.inr rfl)]; simp
  rw [ea] at ka
  rw [eb] at kb
  have h1' : Real.exp 0 * kernel (fun _ _ => 1 / (Fintype.card (Fin 1 × Fin 1) : ℝ))
      (step (fun _ => 0) (fun d : Fin 1 × Fin 1 => localNumpyRow [1, -1] d.1 d.2) (fun _ _ => none))
      [1] [-1] = Real.exp 0 * kernel (fun _ _ => 1 / (Fintype.card (Fin 1 × Fin 1) : ℝ))
      (step (fun _ => 0) (fun d : Fin 1 × Fin 1 => localNumpyRow [1, -1] d.1 d.2) (fun _ _ => none))
      [-1] [1] := h1
  rw [ka, kb] at h1'
  simp at h1'

/-! ### exchange -/

/-- position of a jax index inside an array of length `n`. -/
def pos (n : Nat) (i : Int) : Nat := (if i < 0 then i + n else i).toNat

theorem jaxGet_pos (σ : List Int) (i : Int) (h : -(σ.length : Int) ≤ i ∧ i < σ.length) :
    ∃ hp : pos σ.length i < σ.length, jaxGet σ i = σ[pos σ.length i] := by
  have hp : pos σ.length i < σ.length := by simp only [pos]; split <;> omega
  refine ⟨hp, ?_⟩
  have : jaxIdx σ.length i = pos σ.length i := by simp only [jaxIdx, pos] at hp ⊢; omega
  simp [jaxGet, this, hp]

theorem jaxSet_pos (σ : List Int) (i v : Int) (h : -(σ.length : Int) ≤ i ∧ i < σ.length) :
    jaxSet σ i v = σ.set (pos σ.length i) v := by
  simp only [jaxSet, pos]
  rw [if_pos]
  split <;> omega

theorem exchangeRow_eq (σ : List Int) (si sj : Int) (hi : -(σ.length : Int) ≤ si ∧ si < σ.length)
    (hj : -(σ.length : Int) ≤ sj ∧ sj < σ.length) :
    ∃ (h1 : pos σ.length si < σ.length) (h2 : pos σ.length sj < σ.length),
      exchangeRow σ si sj
        = (σ.set (pos σ.length si) σ[pos σ.length sj]).set (pos σ.length sj) σ[pos σ.length si] := by
  obtain ⟨h1, e1⟩ := jaxGet_pos σ si hi
  obtain ⟨h2, e2⟩ := jaxGet_pos σ sj hj
  refine ⟨h1, h2, ?_⟩
  simp only [exchangeRow]
  rw [jaxSet_pos σ si _ hi, jaxSet_pos _ sj _ (by simpa using hj), e1, e2]
  simp

/-- Every exchange proposal is a rearrangement of the current configuration, for every pair of valid
    (possibly negative) site indices. -/
theorem C45_perm (σ : List Int) (si sj : Int) (hi : -(σ.length : Int) ≤ si ∧ si < σ.length)
    (hj : -(σ.length : Int) ≤ sj ∧ sj < σ.length) : (exchangeRow σ si sj).Perm σ := by
  obtain ⟨h1, h2, e⟩ := exchangeRow_eq σ si sj hi hj
  rw [e]
  exact List.set_set_perm h1 h2

example := C45_perm [1, 2, 3] (-1) 0 (by decide) (by decide)

/-- The two sites really exchange their values and nothing else changes. -/
theorem C45_swap (σ : List Int) (i j : Nat) (hi : i < σ.length) (hj : j < σ.length) (k : Nat) :
    (exchangeRow σ i j)[k]? = if k = j then σ[i]? else if k = i then σ[j]? else σ[k]? := by
  obtain ⟨h1, h2, e⟩ := exchangeRow_eq σ i j (by omega) (by omega)
  have p1 : pos σ.length i = i := by simp only [pos]; rw [if_neg (by omega)]; simp
  have p2 : pos σ.length j = j := by simp only [pos]; rw [if_neg (by omega)]; simp
  simp only [p1, p2] at e
  rw [e]
  by_cases hkj : k = j
  · subst hkj; rw [if_pos rfl]; simp [hi, hj]
  · rw [if_neg hkj, List.getElem?_set_ne (Ne.symm hkj)]
    by_cases hki : k = i
    · subst hki; rw [if_pos rfl]; simp [hi, hj]
    · rw [if_neg hki, List.getElem?_set_ne (Ne.symm hki)]

example := C45_swap [1, 2, 3] 2 0 (by decide) (by decide) 1

/-- The total magnetisation / particle number is conserved. -/
theorem C45_sum (σ : List Int) (si sj : Int) (hi : -(σ.length : Int) ≤ si ∧ si < σ.length)
    (hj : -(σ.length : Int) ≤ sj ∧ sj < σ.length) : (exchangeRow σ si sj).sum = σ.sum :=
  (C45_perm σ si sj hi hj).sum_eq

example := C45_sum [1, 2, 3] (-1) 0 (by decide) (by decide)

/-- Clusters given by the user are not checked: with a site outside the lattice the "exchange"
    overwrites a value. -/
theorem C118_unchecked_clusters_refuted :
    ¬ ∀ (σ : List Int) (si sj : Int), (exchangeRow σ si sj).Perm σ := by
  intro h
  have := (h [1, -1] 5 0).sum_eq
  revert this
  decide +kernel

/-- Clusters are exactly the pairs `i < j` of sites at distance at most `d_max`, each once. -/
theorem C45_clusters {D : Type} [LE D] [DecidableLE D] (n : Nat) (dist : Nat → Nat → D) (dMax : D) :
    (∀ i j, (i, j) ∈ computeClusters n dist dMax ↔ i < j ∧ j < n ∧ dist i j ≤ dMax) ∧
      (computeClusters n dist dMax).Nodup := by
  constructor
  · intro i j
    simp only [computeClusters, List.mem_flatMap, List.mem_range, List.mem_map, List.mem_filter,
      List.mem_range'_1, decide_eq_true_eq, Prod.mk.injEq]
    constructor
    · rintro ⟨a, ha, b, ⟨⟨h1, h2⟩, h3⟩, rfl, rfl⟩
      exact ⟨by omega, by omega, h3⟩
    · rintro ⟨h1, h2, h3⟩
      exact ⟨i, by omega, j, ⟨⟨by omega, by omega⟩, h3⟩, rfl, rfl⟩
  · rw [computeClusters, List.nodup_flatMap]
    refine ⟨fun i _ => ?_, ?_⟩
    · refine List.Nodup.map (fun a b h => ?_) (List.Nodup.filter _ List.nodup_range')
      exact (Prod.mk.inj h).2
    · refine List.Nodup.pairwise_of_forall_ne List.nodup_range ?_
      intro a _ b _ hab p hp hq
      simp only [List.mem_map] at hp hq
      obtain ⟨_, _, rfl⟩ := hp
      obtain ⟨_, _, h⟩ := hq
      exact hab (Prod.mk.inj h).1.symm

theorem set_swap_twice (σ ρ : List Int) (a b : Nat) (h1 : a < σ.length) (h2 : b < σ.length)
    (e : ρ = (σ.set a σ[b]).set b σ[a]) (h1' : a < ρ.length) (h2' : b < ρ.length) :
    (ρ.set a ρ[b]).set b ρ[a] = σ := by
  subst e
  apply List.ext_getElem?
  intro k
  by_cases hb : k = b
  · subst hb
    rw [List.getElem?_set_self (by simpa using h2)]
    rw [List.getElem?_eq_getElem h2, Option.some.injEq]
    by_cases hab : k = a
    · subst hab; simp
    · rw [List.getElem_set_ne (by omega)]; simp
  · rw [List.getElem?_set_ne (Ne.symm hb)]
    by_cases ha : k = a
    · subst ha
      rw [List.getElem?_set_self (by simpa using h1)]
      simp [h1]
    · rw [List.getElem?_set_ne (Ne.symm ha), List.getElem?_set_ne (Ne.symm hb),
        List.getElem?_set_ne (Ne.symm ha)]

theorem exchangeRow_involutive (σ : List Int) (si sj : Int)
    (hi : -(σ.length : Int) ≤ si ∧ si < σ.length) (hj : -(σ.length : Int) ≤ sj ∧ sj < σ.length) :
    exchangeRow (exchangeRow σ si sj) si sj = σ := by
  obtain ⟨h1, h2, e⟩ := exchangeRow_eq σ si sj hi hj
  have hl : (exchangeRow σ si sj).length = σ.length := (C45_perm σ si sj hi hj).length_eq
  obtain ⟨h1', h2', e'⟩ := exchangeRow_eq (exchangeRow σ si sj) si sj (by rw [hl]; exact hi)
    (by rw [hl]; exact hj)
  rw [e']
  simp only [hl]
  exact set_swap_twice σ _ _ _ h1 h2 e _ _

/-- The exchange rule meets the conditions of detailed balance on every set of configurations that
    is closed under rearrangement, e.g. a constrained space. -/
theorem C44_exchange_balanced (clusters : List (Int × Int)) (hne : clusters ≠ []) (N : Nat)
    (hcl : ∀ c ∈ clusters, (-(N : Int) ≤ c.1 ∧ c.1 < N) ∧ (-(N : Int) ≤ c.2 ∧ c.2 < N))
    (S : Finset (List Int)) (hlen : ∀ σ ∈ S, σ.length = N)
    (hperm : ∀ σ ∈ S, ∀ τ, τ.Perm σ → τ ∈ S) :
    Balanced S (fun _ _ => 1 / (Fintype.card (Fin clusters.length) : ℝ))
      (fun d : Fin clusters.length => fun σ => exchangeRow σ clusters[d].1 clusters[d].2)
      (fun _ _ => none) := by
  have : Nonempty (Fin clusters.length) := ⟨⟨0, List.length_pos_iff.2 hne⟩⟩
  have hv : ∀ σ ∈ S, ∀ d : Fin clusters.length,
      (-(σ.length : Int) ≤ clusters[d].1 ∧ clusters[d].1 < σ.length) ∧
      (-(σ.length : Int) ≤ clusters[d].2 ∧ clusters[d].2 < σ.length) := by
    intro σ hσ d
    rw [hlen σ hσ]
    exact hcl _ (List.getElem_mem _)
  refine balanced_of_symm S _ ?_ ?_
  · intro σ hσ d
    exact hperm σ hσ _ (C45_perm σ _ _ (hv σ hσ d).1 (hv σ hσ d).2)
  · intro σ hσ τ hτ _
    congr 1
    ext d
    simp only [Finset.mem_filter, Finset.mem_univ, true_and]
    constructor
    · rintro rfl
      exact exchangeRow_involutive σ _ _ (hv σ hσ d).1 (hv σ hσ d).2
    · rintro rfl
      exact exchangeRow_involutive τ _ _ (hv τ hτ d).1 (hv τ hτ d).2

example := C44_exchange_balanced [(0, 2), (1, -1)] (by decide) 3 (by decide) ([1, -1, 1] : List ℤ).permutations.toFinset
  (fun σ h => (List.mem_permutations.1 (List.mem_toFinset.1 h)).length_eq)
  (fun σ h τ h' => List.mem_toFinset.2 (List.mem_permutations.2 (h'.trans (List.mem_permutations.1 (List.mem_toFinset.1 h)))))

/-- The Metropolis chain with exchange moves samples `|psi|^pow` on the constrained space. -/
theorem C44_exchange (clusters : List (Int × Int)) (hne : clusters ≠ []) (N : Nat)
    (hcl : ∀ c ∈ clusters, (-(N : Int) ≤ c.1 ∧ c.1 < N) ∧ (-(N : Int) ≤ c.2 ∧ c.2 < N))
    (S : Finset (List Int)) (hlen : ∀ σ ∈ S, σ.length = N)
    (hperm : ∀ σ ∈ S, ∀ τ, τ.Perm σ → τ ∈ S) (pow : Nat) (logPsi : List Int → ℝ) (nSweeps : Nat) :
    let P := kpow S (kernel (fun _ _ => 1 / (Fintype.card (Fin clusters.length) : ℝ))
      (step (fun σ => pow * logPsi σ)
        (fun d : Fin clusters.length => fun σ => exchangeRow σ clusters[d].1 clusters[d].2)
        (fun _ _ => none))) nSweeps
    Stochastic S P ∧ Reversible S (fun σ => Real.exp (logPsi σ) ^ pow) P ∧
      Stationary S (fun σ => Real.exp (logPsi σ) ^ pow) P := by
  have h := C44_stationary S _ _ _ (fun σ => pow * logPsi σ)
    (C44_exchange_balanced clusters hne N hcl S hlen hperm) nSweeps
  simpa only [Real.exp_nat_mul] using h

example := C44_exchange [(0, 2), (1, -1)] (by decide) 3 (by decide) ([1, -1, 1] : List ℤ).permutations.toFinset
  (fun σ h => (List.mem_permutations.1 (List.mem_toFinset.1 h)).length_eq)
  (fun σ h τ h' => List.mem_toFinset.2 (List.mem_permutations.2 (h'.trans (List.mem_permutations.1 (List.mem_toFinset.1 h))))) 2 (fun σ => (σ.sum : ℝ)) 4

example : exchangeRow [1, 2, 3] 0 2 = [3, 2, 1] := by decide +kernel
example : computeClusters 4 (fun i j => (j - i : Nat)) 2 = [(0, 1), (0, 2), (1, 2), (1, 3), (2, 3)] := by
  decide +kernel

end Verif.Metro
