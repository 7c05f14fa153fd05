import Verif.Props.SpaceIrreps
import Verif.Props.IrrepMatrices

/-! C154: what `space_group_irreps` gets wrong (space_group.py:216-282). -/

namespace Verif.SpaceIrreps
open Verif.Irrep Verif.Grp Verif.CharTab Matrix Finset
open Complex (exp I)

/-- irreducible characters of commutative groups. -/
theorem comm_char {H : Type} [Group H] [Fintype H] (hc : ∀ a b : H, a * b = b * a) {χ : H → ℂ} (h : IsIrrChar χ) (h1 : χ 1 = 1) (a b : H) :
    χ (a * b) = χ a * χ b := by
  obtain ⟨n, hn, hn1, -, hs⟩ := h.facts
  have hn0 : n = 1 := by
    rw [h1] at hn1
    exact_mod_cast hn1.symm
  subst hn0
  have := hs.eqn a b
  simp only [Nat.cast_one, div_one] at this
  have e : ∀ c, c * b * c⁻¹ = b := fun c => by rw [hc c b, mul_assoc, mul_inv_cancel, mul_one]
  simp only [e, sum_const, card_univ, nsmul_eq_mul] at this
  exact mul_left_cancel₀ card_ne this

theorem comm_norm {H : Type} [Group H] [Fintype H] (hc : ∀ a b : H, a * b = b * a) {χ : H → ℂ} (h : IsIrrChar χ) (h1 : χ 1 = 1) (a : H) :
    ‖χ a‖ = 1 := by
  have hp : ∀ n : Nat, χ (a ^ n) = χ a ^ n := by
    intro n
    induction n with
    | zero => simpa using h1
    | succ n ih => rw [pow_succ, comm_char hc h h1, ih, pow_succ]
  have h2 := hp (Fintype.card H)
  rw [pow_card_eq_one, h1] at h2
  exact Complex.norm_eq_one_of_pow_eq_one h2.symm Fintype.card_ne_zero

theorem prune_one {z : ℂ} {n : Nat} (h : z = n) (hp : prune z = 1) : z = 1 := by
  subst h
  have := congrArg Complex.re hp
  unfold prune at this
  simp only [Complex.natCast_re, Complex.one_re] at this
  split at this
  · norm_num at this
  · have : n = 1 := by exact_mod_cast this
    rw [this]; simp

theorem prune_near (z : ℂ) : |(prune z).re - z.re| ≤ 1 / 10 ^ 8 ∧ |(prune z).im - z.im| ≤ 1 / 10 ^ 8 := by
  unfold prune
  constructor
  · simp only
    split
    · rwa [zero_sub, abs_neg]
    · simp
  · simp only
    split
    · rwa [zero_sub, abs_neg]
    · simp

theorem norm_of_prune {z : ℂ} (h : prune z = 0) : ‖z‖ ≠ 1 := by
  intro h1
  obtain ⟨a, b⟩ := prune_near z
  rw [h] at a b
  simp only [Complex.zero_re, Complex.zero_im, zero_sub, abs_neg] at a b
  have := Complex.norm_le_abs_re_add_abs_im z
  rw [h1] at this
  norm_num at a b
  linarith

theorem norm_of_prune_half {z : ℂ} (h : prune z = -1 / 2) : ‖z‖ ≠ 1 := by
  intro h1
  obtain ⟨a, b⟩ := prune_near z
  rw [h] at a b
  have e1 : ((-1 : ℂ) / 2).re = -1 / 2 := by norm_num
  have e2 : ((-1 : ℂ) / 2).im = 0 := by norm_num
  rw [e1] at a
  rw [e2] at b
  have := Complex.norm_le_abs_re_add_abs_im z
  rw [h1] at this
  rw [zero_sub, abs_neg] at b
  norm_num at a b
  have c := abs_le.1 a
  have : |z.re| ≤ 3 / 4 := by
    rw [abs_le]
    constructor <;> linarith [c.1, c.2]
  linarith

/-! another origin: the chain of two cells with the reflection `x ↦ 1/2 - x`. -/

/-- the translation of the reflection. -/
noncomputable def bondw (u : ℤˣ) : Fin 1 → ℝ := fun _ => if u = 1 then 0 else 1 / 2

theorem bondw_prod (u v : ℤˣ) : bondw u + chainW u *ᵥ bondw v = bondw (u * v) := by
  have h : ¬(-1 : ℤˣ) = 1 := by decide
  rw [chainW_mul]
  funext i
  rcases units_cases u with rfl | rfl <;> rcases units_cases v with rfl | rfl <;> simp [bondw, h]

theorem bond_shift {n : Nat} {z : Fin 1 → ℤ} {x : Fin 1 → ℝ} (h : x = x + (chainL n).shift z) : z = 0 := by
  have h1 : (chainL n).shift z = 0 := by
    have := h.symm
    rwa [add_eq_left] at this
  rw [chain_shift] at h1
  have := congrFun h1 0
  funext i
  rw [Subsingleton.elim i 0]
  simpa using this

/-- the space group of a chain with the sites 0 and 1/2 in the cell, reflected about the middle of a bond. -/
noncomputable def bond (n : Nat) : Affine (chainL n) ℤˣ (DihedralGroup n) where
  W := chainW
  w := bondw
  τ := chainτ n
  π := chainπ n
  orthogonal := (chain n).orthogonal
  integral := (chain n).integral
  origin := by funext i; simp [bondw]
  closed u v := ⟨0, by rw [bondw_prod, chain_shift]; simp; rfl⟩
  product u v z h := by
    rw [bondw_prod] at h
    rw [bond_shift h]
    show _ = chainτ n 1 * _
    rw [map_one, one_mul, map_mul]
  conj := chain_conj n
  trivial := chain_trivial n
  surjective := (chain n).surjective

theorem bond_star (u : ℤˣ) (i : Fin 1) : Lat.rint ((chainL 2).component (chainW u *ᵥ fun _ => Real.pi) i) = (u : ℤ) := by
  have : (chainL 2).component (chainW u *ᵥ fun _ => Real.pi) i = ((u : ℤ) : ℝ) := by
    refine component_int ?_
    rw [chainW_mul]
    simp [dotProduct, Geometry.dims, chainL]
    ring
  rw [this, Bins.rint_int]

theorem bond_phases : exp (-I * ((Real.pi / 2 : ℝ) : ℂ)) + exp (-I * ((-(Real.pi / 2) : ℝ) : ℂ)) = 0 := by
  have h1 : exp (-I * ((-(Real.pi / 2) : ℝ) : ℂ)) = I := by
    rw [show -I * ((-(Real.pi / 2) : ℝ) : ℂ) = (Real.pi / 2 : ℂ) * I by push_cast; ring, Complex.exp_pi_div_two_mul_I]
  have h2 : exp (-I * ((Real.pi / 2 : ℝ) : ℂ)) = -I := by
    rw [show -I * ((Real.pi / 2 : ℝ) : ℂ) = -(Real.pi : ℂ) / 2 * I by push_cast; ring, Complex.exp_neg_pi_div_two_mul_I]
  rw [h1, h2]
  ring

theorem bond_result (ct : List Nat → List (List ℂ)) (hct : ct [0, 1] = [[1, 1]]) :
    ∃ rest, spaceGroupIrreps (chainL 2) [[0, 1], [1, 0]] [chainW 1, chainW (-1)] [bondw 1, bondw (-1)] ct (fun _ => Real.pi) =
      .ok [1 :: 0 :: rest] := by
  have hrec : toReciprocal (chainL 2) ([chainW 1, chainW (-1)].map fun M => M *ᵥ fun _ => Real.pi) = .ok [fun _ => 1, fun _ => -1] := by
    rw [toReciprocal_ok]
    · simp only [List.map_cons, List.map_nil, bond_star]
      rfl
    · intro k hk
      simp only [List.map_cons, List.map_nil, List.mem_cons, List.not_mem_nil, or_false] at hk
      rcases hk with rfl | rfl
      · exact chain_allowed 2 _ 1 (by push_cast; ring) 1
      · exact chain_allowed 2 _ 1 (by push_cast; ring) (-1)
  have hidx : PGrp.littleGroupIndex ([fun _ => 1, fun _ => -1].map (reduced (chainL 2))) = [0, 1] := by decide
  unfold spaceGroupIrreps
  simp only [hrec, hidx, hct]
  have hcells : cells ((List.finRange 1).map (chainL 2).nTrans) = [[0], [1]] := by decide
  rw [hcells]
  have hirr : PGrp.littleGroupIrreps (K := ℝ) [chainW 1, chainW (-1)].length [0, 1] ([[(1 : ℂ), 1]].map fun row => row.map fun z => (z.re, z.im)) true =
      [[1 / 2, 1 / 2]] := by
    simp [PGrp.littleGroupIrreps, PGrp.embedRow, PGrp.castReal, List.range_succ]
  rw [hirr]
  have hT : conjugacyTable [[0, 1], [1, 0]] = [[0, 0], [1, 1]] := by decide
  simp only [List.map_cons, List.map_nil, List.flatMap_cons, List.length_cons, List.length_nil, List.range_succ, List.range_zero, List.nil_append,
    List.cons_append, List.singleton_append]
  have htr : ∀ st, transFactor (chainL 2) st [0] = 1 := by
    intro st
    simp [transFactor]
  have hneg : ¬(-1 : ℤˣ) = 1 := by decide
  have hW1 : (chainW 1 *ᵥ fun _ => Real.pi) = fun _ => Real.pi := by rw [map_one, one_mulVec]
  have hW2 : (chainW (-1) *ᵥ fun _ => Real.pi) = fun _ => -Real.pi := by rw [chainW_mul]; simp
  have hA : prune (∑ x ∈ range (0 + 1 + 1), pointFactor [[0, 1], [1, 0]] [1 / 2, 1 / 2] ([bondw 1, bondw (-1)].getD 0 0)
      ([chainW 1 *ᵥ fun _ => Real.pi, chainW (-1) *ᵥ fun _ => Real.pi].getD x 0) 0 x *
        transFactor (chainL 2) ([fun _ => 1, fun _ => -1].getD x 0) [0]) = 1 := by
    have : ∑ x ∈ range (0 + 1 + 1), pointFactor [[0, 1], [1, 0]] [1 / 2, 1 / 2] ([bondw 1, bondw (-1)].getD 0 0)
        ([chainW 1 *ᵥ fun _ => Real.pi, chainW (-1) *ᵥ fun _ => Real.pi].getD x 0) 0 x *
          transFactor (chainL 2) ([fun _ => 1, fun _ => -1].getD x 0) [0] = 1 := by
      simp only [htr, sum_range_succ, range_zero, sum_empty, pointFactor, hT, entry, hW1, hW2]
      simp [bondw, dotProduct]
      norm_num
    rw [this]
    simp [prune]
    norm_num
    rfl
  have hB : prune (∑ x ∈ range (0 + 1 + 1), pointFactor [[0, 1], [1, 0]] [1 / 2, 1 / 2] ([bondw 1, bondw (-1)].getD 1 0)
      ([chainW 1 *ᵥ fun _ => Real.pi, chainW (-1) *ᵥ fun _ => Real.pi].getD x 0) 1 x *
        transFactor (chainL 2) ([fun _ => 1, fun _ => -1].getD x 0) [0]) = 0 := by
    have : ∑ x ∈ range (0 + 1 + 1), pointFactor [[0, 1], [1, 0]] [1 / 2, 1 / 2] ([bondw 1, bondw (-1)].getD 1 0)
        ([chainW 1 *ᵥ fun _ => Real.pi, chainW (-1) *ᵥ fun _ => Real.pi].getD x 0) 1 x *
          transFactor (chainL 2) ([fun _ => 1, fun _ => -1].getD x 0) [0] = 0 := by
      have d1 : bondw (-1) ⬝ᵥ (fun _ => Real.pi) = Real.pi / 2 := by
        simp [bondw, dotProduct, hneg]
        ring
      have d2 : bondw (-1) ⬝ᵥ (fun _ => -Real.pi) = -(Real.pi / 2) := by
        simp [bondw, dotProduct, hneg]
        ring
      simp only [htr, sum_range_succ, range_zero, sum_empty, pointFactor, hT, entry, hW1, hW2, zero_add, mul_one, List.getD_cons_zero,
        List.getD_cons_succ, d1, d2]
      rw [← mul_add, bond_phases, mul_zero]
    rw [this]
    simp [prune]
    rfl
  rw [hA, hB]
  exact ⟨_, rfl⟩

/-- one-dimensional representations of the dihedral group of order four. -/
theorem dihedral_comm : ∀ a b : DihedralGroup 2, a * b = b * a := by decide

/-- C154: with an operation about another origin, or a glide, at the boundary of the Brillouin zone the rows are no characters, although
    all characters of the little group are real: for the chain of two cells with the reflection `x ↦ 1/2 - x` and `k = π` the reflection
    gets the value zero in a row of dimension one. -/
theorem C154_origin_refuted : ¬∀ (d D : Nat) (L : Geometry d D) (P Γ : Type) (_ : Group P) (_ : Group Γ) (_ : Fintype P) (_ : Fintype Γ)
    (G : Affine L P Γ), (∀ i, 0 < L.extent i) → ∀ ps : List P, ps.Nodup → (∀ p, p ∈ ps) → ps.head? = some 1 →
      ∀ T, IsTable ps T → ∀ k, (∀ p, L.Allowed (G.W p *ᵥ k)) → ∀ (K : Subgroup P) (_ : DecidablePred (· ∈ K)),
        (∀ p, p ∈ K ↔ L.Equivalent (G.W p *ᵥ k) k) → ∀ ψs : List (K → ℂ), (∀ ψ ∈ ψs, IsIrrChar ψ) → (∀ ψ ∈ ψs, ∀ l, (ψ l).im = 0) →
          ∀ lis : List K, lis.map Subtype.val = ps.filter (· ∈ K) → G.Promise ps T k K ψs lis := by
  intro h
  have h1 := h 1 1 (chainL 2) ℤˣ (DihedralGroup 2) _ _ inferInstance inferInstance (bond 2) (fun _ => by simp [chainL]) [1, -1] (by decide)
    (fun u => by rcases units_cases u with rfl | rfl <;> simp) rfl [[0, 1], [1, 0]] chain_table (fun _ => Real.pi)
    (chain_allowed 2 _ 1 (by push_cast; ring)) ⊤ (fun _ => isTrue trivial) (by
      intro u
      simp only [Subgroup.mem_top, true_iff]
      show (chainL 2).Equivalent (chainW u *ᵥ fun _ => Real.pi) _
      rw [chainW_mul, chain_equivalent]
      rcases units_cases u with rfl | rfl
      · exact ⟨0, by simp⟩
      · exact ⟨-1, by push_cast; ring⟩) [fun _ => 1] (by
      intro ψ hψ
      rw [List.mem_singleton.1 hψ]
      have : Fintype (⊤ : Subgroup ℤˣ) := Fintype.ofFinite _
      exact irr_one) (by simp) [1, ⟨-1, trivial⟩] (by simp) (fun _ => [[1, 1]]) (by simp)
  obtain ⟨χs, hlen, hirr, hres⟩ := h1
  obtain ⟨rest, hr⟩ := bond_result (fun _ => [[1, 1]]) rfl
  have hcells : cells ((List.finRange 1).map (chainL 2).nTrans) = [[0], [1]] := by decide
  rw [hcells] at hres
  change spaceGroupIrreps (chainL 2) [[0, 1], [1, 0]] [chainW 1, chainW (-1)] [bondw 1, bondw (-1)] _ _ = _ at hres
  rw [hr] at hres
  obtain ⟨χ, rfl⟩ := List.length_eq_one_iff.1 hlen
  have hres := Except.ok.inj hres
  simp only [List.map_cons, List.map_nil, List.flatMap_cons, List.cons.injEq, List.cons_append] at hres
  obtain ⟨⟨e1, e2, -⟩, -⟩ := hres
  have hχ := hirr χ (List.mem_singleton_self _)
  obtain ⟨n, hn, hn1, -⟩ := hχ.facts
  have e3 : (bond 2).τ (.ofAdd fun i => (([0].getD (i : Nat) 0 : ℕ) : ℤ)) * (bond 2).π 1 = 1 := by
    show chainτ 2 _ * chainπ 2 1 = 1
    rw [map_one, mul_one, chainτ_apply]
    simp
  rw [e3] at e1
  exact norm_of_prune e2.symm (comm_norm dihedral_comm hχ (prune_one hn1 e1.symm) _)

/-! complex characters: the threefold axis of the simple cubic lattice. -/

/-- a symmorphic space group has no translations attached to its point operations. -/
def Symmorphic.affine {d D : Nat} {L : Geometry d D} {P Γ : Type} [Group P] [Group Γ] (G : Symmorphic L P Γ) (h0 : ∀ z, L.shift z = 0 → G.τ (.ofAdd z) = 1) :
    Affine L P Γ where
  W := G.W
  w := 0
  τ := G.τ
  π := G.π
  orthogonal := G.orthogonal
  integral := G.integral
  origin := rfl
  closed p q := ⟨0, by simp [Geometry.shift]⟩
  product p q z h := by
    rw [h0 z (by simpa using h.symm), one_mul, map_mul]
  conj := G.conj
  trivial := G.trivial
  surjective := G.surjective

/-- simple cubic lattice, one cell. -/
def cubicL : Geometry 3 3 := ⟨fun _ => 1, fun _ => true, fun i => Pi.single i 1⟩

theorem cubic_shift (z : Fin 3 → ℤ) : cubicL.shift z = fun i => (z i : ℝ) := by
  funext i
  simp [Geometry.shift, cubicL, Finset.sum_apply, Pi.single_apply]

/-- cyclic permutations of the axes. -/
def cyc (p : Multiplicative (Fin 3)) : Matrix (Fin 3) (Fin 3) ℝ := fun i j => if j = i - p.toAdd then 1 else 0

theorem cyc_mulVec (p : Multiplicative (Fin 3)) (v : Fin 3 → ℝ) : cyc p *ᵥ v = fun i => v (i - p.toAdd) := by
  funext i
  simp [mulVec, dotProduct, cyc]

/-- as a homomorphism. -/
def cycHom : Multiplicative (Fin 3) →* Matrix (Fin 3) (Fin 3) ℝ where
  toFun := cyc
  map_one' := by
    ext i j
    simp [cyc, Matrix.one_apply, eq_comm]
  map_mul' p q := by
    ext i j
    simp only [cyc, Matrix.mul_apply, toAdd_mul, ite_mul, one_mul, zero_mul, Finset.sum_ite_eq', mem_univ, if_true]
    congr 1
    rw [sub_sub]

/-- the group of the threefold axis. -/
def cubic : Symmorphic cubicL (Multiplicative (Fin 3)) (Multiplicative (Fin 3)) where
  W := cycHom
  τ := 1
  π := MonoidHom.id _
  orthogonal p := by
    ext i j
    simp only [cycHom, MonoidHom.coe_mk, OneHom.coe_mk, Matrix.mul_apply, transpose_apply, cyc, Matrix.one_apply, ite_mul, one_mul, zero_mul]
    have e : ∀ k : Fin 3, i = k - p.toAdd ↔ k = i + p.toAdd := fun k => by rw [eq_sub_iff_add_eq, eq_comm]
    simp only [e, Finset.sum_ite_eq', mem_univ, if_true, add_sub_cancel_right]
    congr 1
    exact propext eq_comm
  integral p z := ⟨fun i => z (i - p.toAdd), by
    show cyc p *ᵥ _ = _
    rw [cyc_mulVec, cubic_shift, cubic_shift]⟩
  conj p z z' _ := by simp
  trivial p z := by simp [cubicL]
  surjective x := ⟨0, x, by simp⟩

/-- only the real parts of the character table are used. -/
theorem real_only {d D : Nat} (L : Geometry d D) (T : List (List Nat)) (W : List (Matrix (Fin D) (Fin D) ℝ)) (w : List (Fin D → ℝ))
    (ct : List Nat → List (List ℂ)) (k : Fin D → ℝ) : spaceGroupIrreps L T W w ct k =
      spaceGroupIrreps L T W w (fun idx => (ct idx).map fun row => row.map fun z => (z.re : ℂ)) k := by
  unfold spaceGroupIrreps
  simp only
  split
  · rfl
  · congr 2
    unfold PGrp.littleGroupIrreps
    rw [List.map_map, List.map_map, List.map_map]
    refine List.map_congr_left fun row _ => ?_
    simp only [Function.comp_def, if_true, PGrp.embedRow, List.map_map, PGrp.castReal, Complex.ofReal_re]

/-- a primitive third root of unity. -/
noncomputable def om : ℂ := -1 / 2 + (√3 / 2 : ℝ) * I

theorem om_cube : om ^ 3 = 1 := by
  have h : ((√3 : ℝ) : ℂ) ^ 2 = 3 := by
    rw [← Complex.ofReal_pow, Real.sq_sqrt (by norm_num)]
    norm_num
  have hI := Complex.I_sq
  unfold om
  push_cast
  have e1 : ((√3 : ℝ) : ℂ) ^ 2 * I ^ 2 = -3 := by rw [h, hI]; norm_num
  linear_combination (-(3 : ℂ) / 8 + ((√3 : ℝ) : ℂ) * I / 8) * e1

theorem om_re : om.re = -1 / 2 := by
  simp [om]

/-- the complex character of the threefold rotations. -/
noncomputable def psi3 (l : (⊤ : Subgroup (Multiplicative (Fin 3)))) : ℂ := om ^ (l.1.toAdd : Nat)

theorem psi3_mul (a b : (⊤ : Subgroup (Multiplicative (Fin 3)))) : psi3 (a * b) = psi3 a * psi3 b := by
  unfold psi3
  rw [← pow_add]
  have : ((a * b).1.toAdd : Nat) = ((a.1.toAdd : Nat) + (b.1.toAdd : Nat)) % 3 := rfl
  rw [this, ← Nat.mod_add_div ((a.1.toAdd : Nat) + (b.1.toAdd : Nat)) 3, pow_add, pow_mul, om_cube, one_pow, mul_one]
  simp

theorem psi3_irr : IsIrrChar psi3 := by
  have : Fintype (⊤ : Subgroup (Multiplicative (Fin 3))) := Fintype.ofFinite _
  refine irr_hom psi3 (by simp [psi3]) psi3_mul fun g => ?_
  unfold psi3
  rw [norm_pow, Complex.norm_eq_one_of_pow_eq_one om_cube (by norm_num), one_pow]

theorem cyc_table : IsTable [Multiplicative.ofAdd (0 : Fin 3), .ofAdd 1, .ofAdd 2] [[0, 1, 2], [2, 0, 1], [1, 2, 0]] := by
  refine ⟨by decide, rfl, ?_⟩
  intro i j g h hi hj
  rcases i with _ | _ | _ | i <;> rcases j with _ | _ | _ | j <;> simp_all <;> (subst hi; subst hj; decide)

theorem cubic_allowed (p : Multiplicative (Fin 3)) : cubicL.Allowed (cubic.W p *ᵥ fun _ => 0) := by
  intro i
  refine ⟨0, ?_, by simp⟩
  show (cyc p *ᵥ fun _ => 0) ⬝ᵥ _ = _
  rw [cyc_mulVec]
  simp [dotProduct]

theorem cubic_row (ψ : (⊤ : Subgroup (Multiplicative (Fin 3))) → ℂ) (hk : cubicL.Allowed fun _ => 0) (p : Multiplicative (Fin 3))
    (z : Fin 3 → ℤ) : rowChar cubic (fun _ => by simp [cubicL]) hk ⊤ ψ (cubic.τ (.ofAdd z) * cubic.π p) = ψ ⟨p, trivial⟩ := by
  unfold rowChar
  rw [cubic.equiv_apply, induce]
  have e1 : ∀ q, q⁻¹ * p * q = p := fun q => by rw [mul_comm q⁻¹, mul_assoc, inv_mul_cancel, mul_one]
  have e2 : extend ⊤ ψ p = ψ ⟨p, trivial⟩ := dif_pos trivial
  have e3 : cubic.tr z = 1 := Subtype.ext rfl
  simp only [e1, e2, e3, map_one, one_mul, sum_const, card_univ, Subgroup.card_top, Nat.card_eq_fintype_card]
  rw [nsmul_eq_mul, mul_div_cancel₀ _ card_ne]

/-- C154: complex characters of the little group lose their imaginary part, and the rows are no characters: the threefold axis at the
    centre of the Brillouin zone of a simple cubic lattice. -/
theorem C154_complex_refuted : ¬∀ (d D : Nat) (L : Geometry d D) (P Γ : Type) (_ : Group P) (_ : Group Γ) (_ : Fintype P) (_ : Fintype Γ)
    (G : Affine L P Γ), (∀ p, G.w p = 0) → (∀ i, 0 < L.extent i) → ∀ ps : List P, ps.Nodup → (∀ p, p ∈ ps) → ps.head? = some 1 →
      ∀ T, IsTable ps T → ∀ k, (∀ p, L.Allowed (G.W p *ᵥ k)) → ∀ (K : Subgroup P) (_ : DecidablePred (· ∈ K)),
        (∀ p, p ∈ K ↔ L.Equivalent (G.W p *ᵥ k) k) → ∀ ψs : List (K → ℂ), (∀ ψ ∈ ψs, IsIrrChar ψ) →
          ∀ lis : List K, lis.map Subtype.val = ps.filter (· ∈ K) → G.Promise ps T k K ψs lis := by
  intro h
  have hk1 : cubicL.Allowed fun _ => 0 := by simpa using cubic_allowed 1
  have hext : ∀ i, 0 < cubicL.extent i := fun _ => by simp [cubicL]
  let G := cubic.affine fun z _ => rfl
  let ps : List (Multiplicative (Fin 3)) := [.ofAdd 0, .ofAdd 1, .ofAdd 2]
  let lis : List (⊤ : Subgroup (Multiplicative (Fin 3))) := [⟨.ofAdd 0, trivial⟩, ⟨.ofAdd 1, trivial⟩, ⟨.ofAdd 2, trivial⟩]
  have hK : ∀ p, p ∈ (⊤ : Subgroup (Multiplicative (Fin 3))) ↔ cubicL.Equivalent (cubic.W p *ᵥ fun _ => 0) fun _ => 0 := by
    intro p
    simp only [Subgroup.mem_top, true_iff]
    show cubicL.Equivalent (cyc p *ᵥ fun _ => 0) fun _ => 0
    rw [cyc_mulVec]
    exact fun i => ⟨0, by simp⟩
  have hall : ∀ p, p ∈ ps := by decide
  let ct : List Nat → List (List ℂ) := fun _ => [lis.map psi3]
  have h1 := h 3 3 cubicL _ _ _ _ inferInstance inferInstance G (fun _ => rfl) hext ps (by decide) hall rfl _ cyc_table (fun _ => 0)
    cubic_allowed ⊤ (fun _ => isTrue trivial) hK [psi3] (by
      intro ψ hψ
      rw [List.mem_singleton.1 hψ]
      exact psi3_irr) lis (by simp [lis, ps]) ct (by simp [ct])
  obtain ⟨χs, hlen, hirr, hres⟩ := h1
  have hdec : DecidablePred (· ∈ (⊤ : Subgroup (Multiplicative (Fin 3)))) := fun _ => isTrue trivial
  have h2 := rows_eq (K := ⊤) cubic hext ps (by decide) hall rfl _ cyc_table (fun _ => 0) cubic_allowed hk1 hK [fun l => ((psi3 l).re : ℂ)]
    (by simp) lis (by simp [lis, ps]) (fun idx => (ct idx).map fun row => row.map fun z => (z.re : ℂ)) (by simp [ct])
  rw [← real_only] at h2
  change spaceGroupIrreps cubicL _ _ (ps.map fun _ => 0) ct _ = _ at hres
  have h3 := Except.ok.inj (hres.symm.trans h2)
  obtain ⟨χ, rfl⟩ := List.length_eq_one_iff.1 hlen
  have hcells : cells ((List.finRange 3).map cubicL.nTrans) = [[0, 0, 0]] := by decide
  rw [hcells] at h3
  simp only [List.map_cons, List.map_nil, List.flatMap_cons, List.flatMap_nil, ps, cubic_row, List.append_nil, List.cons.injEq, and_true] at h3
  obtain ⟨e1, e2, -⟩ := h3
  have hχ := hirr χ (List.mem_singleton_self _)
  obtain ⟨n, hn, hn1, -⟩ := hχ.facts
  have f1 : G.τ (.ofAdd fun i => (([0, 0, 0].getD (i : Nat) 0 : ℕ) : ℤ)) * G.π (.ofAdd 0) = 1 := rfl
  rw [f1] at e1
  have hone : χ 1 = 1 := by
    refine prune_one hn1 (e1.trans ?_)
    have : psi3 ⟨.ofAdd 0, trivial⟩ = 1 := by simp [psi3]
    rw [this]
    simp [prune]
    norm_num
    rfl
  refine norm_of_prune_half (e2.trans ?_) (comm_norm (fun a b => mul_comm a b) hχ hone _)
  have : psi3 ⟨.ofAdd 1, trivial⟩ = om := by simp [psi3]
  rw [this, om_re]
  apply Complex.ext
  · simp [prune]
    norm_num
  · simp [prune]

end Verif.SpaceIrreps
