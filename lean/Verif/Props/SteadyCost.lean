import Verif.Props.Liouvillian
import Verif.Props.Eigenstate
import Mathlib.Tactic.Linarith

/-! C226: the cost function of the steady state. -/

namespace Verif.SteadyCost
open Verif.LocalOp Verif.Hilbert Verif.Liou Verif.Lindblad Matrix

variable {α : Type} [LinearOrder α] [Inhabited α] {N : Nat} {cut : Cutoff ℂ} {hi : Fin N → List α}

/-- specification: a local value from connected elements: `∑ m exp(log ρ(x', y') - log ρ(x, y))`. -/
noncomputable def loc (logVal : (Fin N → α) → (Fin N → α) → ℂ) (x : (Fin N → α) × (Fin N → α))
    (row : List (((Fin N → α) × (Fin N → α)) × ℂ)) : ℂ :=
  (row.map fun p => p.2 * Complex.exp (logVal p.1.1 p.1.2 - logVal x.1 x.2)).sum

/-- specification: `‖L ρ‖² / ‖ρ‖²` with the right-hand side of the Lindblad master equation. -/
noncomputable def residual (hi : Fin N → List α) (H : Matrix (basisStates hi) (basisStates hi) ℂ)
    (Ls : List (Matrix (basisStates hi) (basisStates hi) ℂ)) (ρ : Matrix (basisStates hi) (basisStates hi) ℂ) : ℝ :=
  (∑ u, ∑ v, Complex.normSq (lindblad Complex.I (1 / 2) H Ls ρ u v)) / ∑ u, ∑ v, Complex.normSq (ρ u v)

theorem sum_zip {ι κ : Type} (xs : List ι) (rows : List κ) (R : ι → κ → Prop) (h : List.Forall₂ R xs rows) (f : ι → κ → ℝ) (g : ι → ℝ)
    (hfg : ∀ x r, R x r → f x r = g x) : (List.zipWith f xs rows).sum = (xs.map g).sum := by
  induction h with
  | nil => rfl
  | cons h1 _ ih => simp only [List.zipWith_cons_cons, List.sum_cons, List.map_cons, ih, hfg _ _ h1]

/-- C226: the squared absolute local values of a Lindbladian with Hermitian Hamiltonian, averaged over all pairs of configurations with weights
    `|ρ|²`, are `‖L ρ‖² / ‖ρ‖²`; this cost is never negative, and it is zero precisely for the stationary states. The connected elements are those of
    `get_conn_flattened` (see `C23_get_conn_flattened`). -/
theorem C226_cost (h : LOp ℂ α N) (hH : (mat hi h)ᴴ = mat hi h) (ls : List (LOp ℂ α N))
    (xs : List ((Fin N → α) × (Fin N → α))) (hnd : xs.Nodup) (hxs : ∀ x, x ∈ xs ↔ Valid hi x.1 ∧ Valid hi x.2)
    (rows : List (List (((Fin N → α) × (Fin N → α)) × ℂ)))
    (hr : List.Forall₂ (Represents hi Complex.I (1 / 2) h ls) xs rows) (logVal : (Fin N → α) → (Fin N → α) → ℂ) (hne : xs ≠ []) :
    (List.zipWith (fun x row => Complex.normSq (Complex.exp (logVal x.1 x.2)) * Complex.normSq (loc logVal x row)) xs rows).sum
        / (xs.map fun x => Complex.normSq (Complex.exp (logVal x.1 x.2))).sum
      = residual hi (mat hi h) (ls.map (mat hi)) (dens hi fun a b => Complex.exp (logVal a b))
    ∧ 0 ≤ residual hi (mat hi h) (ls.map (mat hi)) (dens hi fun a b => Complex.exp (logVal a b))
    ∧ (residual hi (mat hi h) (ls.map (mat hi)) (dens hi fun a b => Complex.exp (logVal a b)) = 0
        ↔ lindblad Complex.I (1 / 2) (mat hi h) (ls.map (mat hi)) (dens hi fun a b => Complex.exp (logVal a b)) = 0) := by
  set ρ := dens hi fun a b => Complex.exp (logVal a b) with hρ
  set Lr := lindblad Complex.I (1 / 2) (mat hi h) (ls.map (mat hi)) ρ with hLr
  have hfin : xs.toFinset = basisStates hi ×ˢ basisStates hi := by
    ext x
    rw [List.mem_toFinset, hxs, Finset.mem_product, Verif.LocalOp.mem_basis, Verif.LocalOp.mem_basis]
  have hsum : ∀ f : (Fin N → α) × (Fin N → α) → ℝ, (xs.map f).sum = ∑ u : basisStates hi, ∑ v : basisStates hi, f (u.1, v.1) := by
    intro f
    rw [← List.sum_toFinset f hnd, hfin, Finset.sum_product, ← Finset.sum_coe_sort]
    refine Finset.sum_congr rfl fun u _ => ?_
    rw [← Finset.sum_coe_sort]
  open Classical in
  have hval : ∀ x row, Represents hi Complex.I (1 / 2) h ls x row ∧ x ∈ xs →
      Complex.normSq (Complex.exp (logVal x.1 x.2)) * Complex.normSq (loc logVal x row)
        = (fun x => if hx : x.1 ∈ basisStates hi ∧ x.2 ∈ basisStates hi then Complex.normSq (Lr ⟨x.1, hx.1⟩ ⟨x.2, hx.2⟩) else 0) x := by
    rintro x row ⟨hrep, hx⟩
    have hx' : x.1 ∈ basisStates hi ∧ x.2 ∈ basisStates hi := by
      rw [Verif.LocalOp.mem_basis, Verif.LocalOp.mem_basis]; exact (hxs x).1 hx
    have h1 := hrep.2 (fun a b => Complex.exp (logVal a b)) ⟨x.1, hx'.1⟩ ⟨x.2, hx'.2⟩ rfl rfl
    rw [C23_hermitian_generator Complex.I (1 / 2) (mat hi h) hH, ← hρ, ← hLr] at h1
    have h2 : Complex.exp (logVal x.1 x.2) * loc logVal x row = Lr ⟨x.1, hx'.1⟩ ⟨x.2, hx'.2⟩ := by
      rw [← h1, loc, ← List.sum_map_mul_left]
      congr 1
      refine List.map_congr_left fun p _ => ?_
      rw [Complex.exp_sub]
      field_simp [Complex.exp_ne_zero]
    simp only [hx', and_self, dif_pos]
    rw [← Complex.normSq_mul, h2]
  have hr' : List.Forall₂ (fun x row => Represents hi Complex.I (1 / 2) h ls x row ∧ x ∈ xs) xs rows := by
    rw [List.forall₂_iff_get] at hr ⊢
    exact ⟨hr.1, fun i h1 h2 => ⟨hr.2 i h1 h2, List.get_mem _ _⟩⟩
  have hden : 0 < ∑ u : basisStates hi, ∑ v : basisStates hi, Complex.normSq (ρ u v) := by
    obtain ⟨x, hx⟩ := List.exists_mem_of_ne_nil xs hne
    obtain ⟨v1, v2⟩ := (hxs x).1 hx
    refine Finset.sum_pos (fun u _ => Finset.sum_pos (fun v _ => Complex.normSq_pos.2 (Complex.exp_ne_zero _)) ?_) ?_
    · exact ⟨⟨x.2, (Verif.LocalOp.mem_basis _).2 v2⟩, Finset.mem_univ _⟩
    · exact ⟨⟨x.1, (Verif.LocalOp.mem_basis _).2 v1⟩, Finset.mem_univ _⟩
  have hnum : 0 ≤ ∑ u : basisStates hi, ∑ v : basisStates hi, Complex.normSq (Lr u v) :=
    Finset.sum_nonneg fun u _ => Finset.sum_nonneg fun v _ => Complex.normSq_nonneg _
  refine ⟨?_, div_nonneg hnum hden.le, ?_⟩
  · rw [sum_zip xs rows _ hr' _ _ hval, hsum, hsum]
    unfold residual
    congr 1
    refine Finset.sum_congr rfl fun u _ => Finset.sum_congr rfl fun v _ => ?_
    simp only [u.2, v.2, and_self, dif_pos]
    rfl
  · unfold residual
    rw [div_eq_zero_iff]
    constructor
    · rintro (h0 | h0)
      · ext u v
        have h1 := (Finset.sum_eq_zero_iff_of_nonneg fun u _ => Finset.sum_nonneg fun v _ => Complex.normSq_nonneg _).1 h0 u (Finset.mem_univ _)
        have h2 := (Finset.sum_eq_zero_iff_of_nonneg fun v _ => Complex.normSq_nonneg _).1 h1 v (Finset.mem_univ _)
        exact Complex.normSq_eq_zero.1 h2
      · exact absurd h0 hden.ne'
    · intro h0
      left
      rw [← hLr, h0]
      simp

/-- C226 for the operator itself: a Lindbladian built from local operators can be constructed, and with the connected elements which its
    `get_conn_flattened` returns the cost is `‖L ρ‖² / ‖ρ‖²`. -/
theorem C226_lindbladian (hid : Ideal cut) (hs : SortedSpace hi) (hu : Uniform hi) (h : LOp ℂ α N) (hb : Built cut hi h)
    (hH : (mat hi h)ᴴ = mat hi h) (ls : List (LOp ℂ α N)) (hl : ∀ l ∈ ls, Built cut hi l)
    (xs : List ((Fin N → α) × (Fin N → α))) (hnd : xs.Nodup) (hxs : ∀ x, x ∈ xs ↔ Valid hi x.1 ∧ Valid hi x.2) (hne : xs ≠ []) :
    ∃ op, mkLiou cut hi (1 / 2 * Complex.I) h ls = .ok op ∧ (RowsFit cut hi op →
      ∀ (gm : LOp ℂ α N → Nat → ℂ) (gx : LOp ℂ α N → Nat → Fin N → α) (logVal : (Fin N → α) → (Fin N → α) → ℂ),
      ∃ flat secs, flattened Complex.I (maxConn cut op * xs.length) (opFlat hi gm gx op.hnh) (op.jumps.map (opFlat hi gm gx)) xs = .ok (flat, secs)
        ∧ (List.zipWith (fun x row => Complex.normSq (Complex.exp (logVal x.1 x.2)) * Complex.normSq (loc logVal x row)) xs
              (splitSections flat 0 secs)).sum
            / (xs.map fun x => Complex.normSq (Complex.exp (logVal x.1 x.2))).sum
          = residual hi (mat hi h) (ls.map (mat hi)) (dens hi fun a b => Complex.exp (logVal a b))) := by
  obtain ⟨op, h1, h2⟩ := C23_get_conn_flattened hid hs hu Complex.I (1 / 2) (by simp) Complex.I_mul_I (by simp) h hb ls hl
  refine ⟨op, h1, fun hf gm gx logVal => ?_⟩
  obtain ⟨flat, secs, h3, h4⟩ := h2 hf gm gx xs fun x hx => (hxs x).1 hx
  exact ⟨flat, secs, h3, (C226_cost h hH ls xs hnd hxs _ h4 logVal hne).1⟩

/-- a spin in a transverse field with itself as jump operator meets the hypotheses. -/
example : ∃ (cut : Cutoff ℂ) (op : LOp ℂ ℤ 1) (xs : List ((Fin 1 → ℤ) × (Fin 1 → ℤ))), Ideal cut ∧ Built cut (fun _ : Fin 1 => [-1, 1]) op
    ∧ (mat (fun _ : Fin 1 => ([-1, 1] : List ℤ)) op)ᴴ = mat (fun _ : Fin 1 => ([-1, 1] : List ℤ)) op ∧ mat (fun _ : Fin 1 => ([-1, 1] : List ℤ)) op ≠ 0
    ∧ xs.Nodup ∧ (∀ x, x ∈ xs ↔ Valid (fun _ : Fin 1 => ([-1, 1] : List ℤ)) x.1 ∧ Valid (fun _ : Fin 1 => ([-1, 1] : List ℤ)) x.2) ∧ xs ≠ [] := by
  classical
  let cut : Cutoff ℂ := ⟨fun z => decide (z ≠ 0), fun z => decide (z ≠ 0)⟩
  have hid : Ideal cut := by constructor <;> simp [cut]
  have hs : SortedSpace (fun _ : Fin 1 => ([-1, 1] : List ℤ)) := fun _ => by simp
  have ha : ArgsOK (fun _ : Fin 1 => ([-1, 1] : List ℤ)) [((⟨2, fun i j => if i = j then 0 else -1⟩ : Mat ℂ), [0])] := by
    intro p hp
    rw [List.mem_singleton] at hp
    subst hp
    exact ⟨by simp, by simp, by simp [dims], Or.inl (by simp)⟩
  obtain ⟨op, h1, _, _, hm⟩ := mk_ok hid hs (0 : ℂ) _ ha
  have hne : (fun _ : Fin 1 => (-1 : ℤ)) ≠ fun _ => 1 := by decide
  have hmat : ∀ x x' : {x // x ∈ basisStates (fun _ : Fin 1 => ([-1, 1] : List ℤ))}, mat (fun _ : Fin 1 => ([-1, 1] : List ℤ)) op x x' = Verif.Eigen.field1 x x' := by
    rintro ⟨x, hx⟩ ⟨x', hx'⟩
    show matrixOf _ op x x' = _
    rw [hm x x' ((Verif.LocalOp.mem_basis x).1 hx) ((Verif.LocalOp.mem_basis x').1 hx')]
    rw [Verif.Eigen.basis1] at hx hx'
    simp only [Finset.mem_insert, Finset.mem_singleton] at hx hx'
    rcases hx with rfl | rfl <;> rcases hx' with rfl | rfl <;> simp [matrixOfList, embed, lexIdx, Verif.Radix.enc, Verif.Eigen.field1, hne, hne.symm]
  refine ⟨cut, op, (basisStates (fun _ : Fin 1 => ([-1, 1] : List ℤ)) ×ˢ basisStates (fun _ : Fin 1 => ([-1, 1] : List ℤ))).toList, hid, .mk ha h1, ?_, ?_,
    Finset.nodup_toList _, ?_, ?_⟩
  · ext a b
    rw [Matrix.conjTranspose_apply, hmat, hmat, ← Verif.Eigen.field1_hermitian b b.2 a a.2]
  · intro h0
    have := congrFun (congrFun h0 ⟨fun _ => -1, by rw [Verif.Eigen.basis1]; simp⟩) ⟨fun _ => 1, by rw [Verif.Eigen.basis1]; simp⟩
    rw [hmat] at this
    simp [Verif.Eigen.field1, hne] at this
  · intro x
    rw [Finset.mem_toList, Finset.mem_product, Verif.LocalOp.mem_basis, Verif.LocalOp.mem_basis]
  · intro h0
    rw [Finset.toList_eq_nil] at h0
    have : ((fun _ => 1, fun _ => 1) : (Fin 1 → ℤ) × (Fin 1 → ℤ)) ∈ (∅ : Finset _) := by
      rw [← h0, Finset.mem_product, Verif.Eigen.basis1]; simp
    simp at this

end Verif.SteadyCost
