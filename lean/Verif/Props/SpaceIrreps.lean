import Verif.Lemmas.Completeness
import Verif.Props.PointGroup
import Verif.Props.FloatBins
import Verif.Lemmas.ChainGroup

/-! C153: characters of the space group (space_group.py:229-282, lattice.py:508-553). -/

namespace Verif.SpaceIrreps
open Verif.Irrep Verif.Grp Verif.CharTab Matrix Finset
open Complex (exp I)
open Verif.Hilbert (Err)

variable {d D : Nat} {L : Geometry d D} {P Γ : Type} [Group P] [Group Γ]

theorem component_int {k : Fin D → ℝ} {i : Fin d} {m : ℤ} (h : k ⬝ᵥ L.dims i = 2 * Real.pi * m) : L.component k i = m := by
  unfold Geometry.component
  rw [h, mul_div_cancel_left₀ _ (by positivity)]

theorem toReciprocal_ok (ks : List (Fin D → ℝ)) (h : ∀ k ∈ ks, L.Allowed k) :
    toReciprocal L ks = .ok (ks.map fun k i => Lat.rint (L.component k i)) := by
  unfold toReciprocal
  rw [if_pos, if_pos]
  · intro k hk i
    obtain ⟨m, hm, h0⟩ := h k hk i
    cases hp : L.pbc i with
    | true => simp
    | false =>
      right
      rw [component_int hm, Bins.rint_int, h0 hp]
  · intro k hk i
    obtain ⟨m, hm, h0⟩ := h k hk i
    rw [component_int hm]
    unfold isApproxInt
    rw [Bins.rint_int]
    norm_num

theorem rint_component {k : Fin D → ℝ} (h : L.Allowed k) (i : Fin d) :
    k ⬝ᵥ L.dims i = 2 * Real.pi * (Lat.rint (L.component k i) : ℤ) := by
  obtain ⟨m, hm, -⟩ := h i
  rw [component_int hm, Bins.rint_int, hm]

theorem dot_basis (hext : ∀ i, 0 < L.extent i) {k : Fin D → ℝ} (h : L.Allowed k) (i : Fin d) :
    k ⬝ᵥ L.basis i = (Lat.rint (L.component k i) : ℤ) * (2 * Real.pi / L.extent i) := by
  have h1 := rint_component h i
  have he : (L.extent i : ℝ) ≠ 0 := by
    have := hext i
    positivity
  rw [Geometry.dims, dotProduct_smul, smul_eq_mul] at h1
  field_simp
  linarith

theorem transFactor_phase (hext : ∀ i, 0 < L.extent i) {k : Fin D → ℝ} (h : L.Allowed k) (t : List Nat) :
    transFactor L (fun i => Lat.rint (L.component k i)) t = phase L k (.ofAdd fun i => (t.getD i 0 : ℤ)) := by
  rw [phase_apply, transFactor, ← Complex.exp_sum, Geometry.shift, dotProduct_sum]
  congr 1
  push_cast
  rw [mul_sum]
  refine sum_congr rfl fun i _ => ?_
  rw [dotProduct_smul, smul_eq_mul, dot_basis hext h]
  push_cast
  ring

theorem equivalent_reduced (hext : ∀ i, 0 < L.extent i) {k k' : Fin D → ℝ} (h : L.Allowed k) (h' : L.Allowed k') :
    L.Equivalent k k' ↔
      reduced L (fun i => Lat.rint (L.component k i)) = reduced L (fun i => Lat.rint (L.component k' i)) := by
  unfold Geometry.Equivalent reduced
  rw [funext_iff]
  refine forall_congr' fun i => ?_
  rw [sub_dotProduct, dot_basis hext h, dot_basis hext h']
  have he : (L.extent i : ℝ) ≠ 0 := by
    have := hext i
    positivity
  have hpi := Real.pi_ne_zero
  show _ ↔ _ ≡ _ [ZMOD _]
  rw [Int.modEq_comm, Int.modEq_iff_dvd]
  refine exists_congr fun c => ?_
  rw [← Int.cast_inj (α := ℝ)]
  push_cast
  constructor
  · intro h
    field_simp at h
    linarith
  · intro h
    field_simp
    linarith

omit [Group P] in
theorem sum_list {M : Type} [AddCommMonoid M] [Fintype P] (ps : List P) (hnd : ps.Nodup) (hall : ∀ p, p ∈ ps) (F : Nat → M) (H : P → M)
    (hF : ∀ (j : Nat) p, ps[j]? = some p → F j = H p) : ∑ j ∈ range ps.length, F j = ∑ p, H p := by
  classical
  have h1 : ∑ p, H p = (ps.map H).sum := by
    rw [← List.sum_toFinset H hnd]
    refine sum_congr ?_ fun _ _ => rfl
    ext p
    simp [hall]
  rw [h1]
  clear h1 hall hnd
  induction ps generalizing F with
  | nil => simp
  | cons p ps ih =>
    rw [List.length_cons, sum_range_succ', List.map_cons, List.sum_cons, hF 0 p rfl, add_comm]
    congr 1
    exact ih (fun j => F (j + 1)) fun j q hq => hF (j + 1) q (by simpa using hq)

theorem filterMap_filter {α : Type} (ps : List α) (q : Nat → Bool) (r : α → Bool) (h : ∀ (i : Nat) p, ps[i]? = some p → q i = r p) :
    ((List.range ps.length).filter q).filterMap (fun j => ps[j]?) = ps.filter r := by
  induction ps generalizing q with
  | nil => simp
  | cons p ps ih =>
    rw [List.length_cons, List.range_succ_eq_map, List.filter_cons, List.filter_map]
    have h0 := h 0 p rfl
    have h1 := ih (fun i => q (i + 1)) fun i x hx => h (i + 1) x (by simpa using hx)
    rw [List.filter_cons, h0]
    have e : ((List.filter (q ∘ Nat.succ) (List.range ps.length)).map Nat.succ).filterMap (fun j => (p :: ps)[j]?) = ps.filter r := by
      rw [List.filterMap_map, ← h1]
      rfl
    cases r p <;> simp [e]

/-- the entry of the embedded row for an element of the point group. -/
theorem embed_entry (ps : List P) (K : Subgroup P) (idx : List Nat)
    (hidx : ∀ (j : Nat) p, ps[j]? = some p → (j ∈ idx ↔ p ∈ K)) (lis : List K)
    (hlt : ∀ j ∈ idx, j < ps.length)
    (hlis : idx.filterMap (fun j => ps[j]?) = lis.map Subtype.val) (ψ : K → ℂ) (j : Nat) (p : P) (hj : ps[j]? = some p) :
    (PGrp.embedRow ps.length idx ((lis.map ψ).map fun z => (z.re, z.im))).getD j 0 = (extend K ψ p).re := by
  have hjl : j < ps.length := (List.getElem?_eq_some_iff.1 hj).1
  unfold PGrp.embedRow
  rw [List.getD_eq_getElem?_getD, List.getElem?_map, List.getElem?_range hjl]
  simp only [Option.map_some, Option.getD_some]
  unfold extend
  by_cases hp : p ∈ K
  · rw [if_pos ((hidx j p hj).2 hp), dif_pos hp]
    have hmem := (hidx j p hj).2 hp
    have e1 : idx.filterMap (fun j => ps[j]?) = idx.map fun j => ps.getD j 1 := by
      rw [← List.filterMap_eq_map]
      refine List.filterMap_congr fun i hi => ?_
      show ps[i]? = some (ps.getD i 1)
      rw [List.getD_eq_getElem?_getD, List.getElem?_eq_getElem (hlt i hi)]
      rfl
    have h2 : idx[idx.idxOf j]? = some j := by
      rw [List.getElem?_eq_getElem (List.idxOf_lt_length_iff.2 hmem), List.getElem_idxOf]
    have h3 : (lis.map Subtype.val)[idx.idxOf j]? = some p := by
      rw [← hlis, e1, List.getElem?_map, h2, Option.map_some, List.getD_eq_getElem?_getD, hj]
      rfl
    rw [List.getElem?_map] at h3
    obtain ⟨l, hl, rfl⟩ := Option.map_eq_some_iff.1 h3
    rw [List.getD_eq_getElem?_getD, List.getElem?_map, List.getElem?_map, List.getElem?_map, hl]
    rfl
  · rw [if_neg fun h => hp ((hidx j p hj).1 h), dif_neg hp]
    rfl

/-- the function on the group whose values are the entries of a row. -/
noncomputable def rowChar [Fintype P] (G : Symmorphic L P Γ) (hext : ∀ i, 0 < L.extent i) {k : Fin D → ℝ} (hk : L.Allowed k) (K : Subgroup P)
    (ψ : K → ℂ) (x : Γ) : ℂ := induce G.act (G.kappa hext hk) K ψ (G.equiv x).left (G.equiv x).right

/-- the values of the rows. -/
theorem rows_eq [Fintype P] (G : Symmorphic L P Γ) (hext : ∀ i, 0 < L.extent i) (ps : List P) (hnd : ps.Nodup) (hall : ∀ p, p ∈ ps)
    (hhead : ps.head? = some 1) (T : List (List Nat)) (hT : IsTable ps T) (k : Fin D → ℝ) (hk : ∀ p, L.Allowed (G.W p *ᵥ k)) (hk1 : L.Allowed k)
    (K : Subgroup P) [DecidablePred (· ∈ K)] (hK : ∀ p, p ∈ K ↔ L.Equivalent (G.W p *ᵥ k) k) (ψs : List (K → ℂ))
    (hreal : ∀ ψ ∈ ψs, ∀ l, (ψ l).im = 0) (lis : List K) (hlis : lis.map Subtype.val = ps.filter (· ∈ K))
    (ct : List Nat → List (List ℂ))
    (hct : ∀ idx, idx.filterMap (fun j => ps[j]?) = lis.map Subtype.val → ct idx = ψs.map fun ψ => lis.map ψ) :
    spaceGroupIrreps L T (ps.map G.W) (ps.map fun _ => 0) ct k = .ok (ψs.map fun ψ =>
      (cells ((List.finRange d).map L.nTrans)).flatMap fun t => ps.map fun p =>
        prune (rowChar G hext hk1 K ψ (G.τ (.ofAdd fun i => (t.getD i 0 : ℤ)) * G.π p))) := by
  classical
  have hstar : toReciprocal L ((ps.map G.W).map fun M => M *ᵥ k) =
      .ok (ps.map fun p i => Lat.rint (L.component (G.W p *ᵥ k) i)) := by
    rw [toReciprocal_ok, List.map_map, List.map_map]
    · rfl
    · intro x hx
      rw [List.map_map, List.mem_map] at hx
      obtain ⟨p, -, rfl⟩ := hx
      exact hk p
  set idx := PGrp.littleGroupIndex ((ps.map fun p i => Lat.rint (L.component (G.W p *ᵥ k) i)).map (reduced L)) with hidxdef
  obtain ⟨ps', rfl⟩ : ∃ ps', ps = 1 :: ps' := by
    cases ps with
    | nil => simp at hhead
    | cons a l => simp only [List.head?_cons, Option.some.injEq] at hhead; exact ⟨l, by rw [hhead]⟩
  set ps := 1 :: ps' with hps
  have hidx1 : idx = (List.range ps.length).filter fun i =>
      decide ((ps[i]?).map (fun p => reduced L fun i => Lat.rint (L.component (G.W p *ᵥ k) i)) =
        some (reduced L fun i => Lat.rint (L.component k i))) := by
    have h1 : (reduced L fun i => Lat.rint (L.component k i)) =
        (fun p => reduced L fun i => Lat.rint (L.component (G.W p *ᵥ k) i)) 1 := by simp only [map_one, one_mulVec]
    rw [hidxdef, List.map_map, h1]
    generalize hF : (fun p => reduced L fun i => Lat.rint (L.component (G.W p *ᵥ k) i)) = F
    have h2 : (reduced L ∘ fun p i => Lat.rint (L.component (G.W p *ᵥ k) i)) = F := hF
    rw [h2, hps]
    show (List.range ((1 :: ps').map F).length).filter _ = _
    rw [List.length_map]
    refine List.filter_congr fun i _ => ?_
    rw [List.getElem?_map]
  have hdec : ∀ (i : Nat) p, ps[i]? = some p → (decide ((ps[i]?).map (fun p => reduced L fun i => Lat.rint (L.component (G.W p *ᵥ k) i)) =
        some (reduced L fun i => Lat.rint (L.component k i)))) = decide (p ∈ K) := by
    intro i p hp
    rw [hp, decide_eq_decide, hK, equivalent_reduced hext (hk p) hk1]
    simp
  have hfm : idx.filterMap (fun j => ps[j]?) = lis.map Subtype.val := by
    rw [hidx1, filterMap_filter ps _ (fun p => decide (p ∈ K)) hdec, hlis]
  have hidx : ∀ (j : Nat) p, ps[j]? = some p → (j ∈ idx ↔ p ∈ K) := by
    intro j p hj
    have := hdec j p hj
    rw [hidx1, List.mem_filter, this]
    simp [(List.getElem?_eq_some_iff.1 hj).1]
  have hlt : ∀ j ∈ idx, j < ps.length := by
    intro j hj
    rw [hidx1, List.mem_filter, List.mem_range] at hj
    exact hj.1
  have hcard : (idx.length : ℝ) = (Nat.card K : ℝ) := by
    have e1 : idx.length = lis.length := by
      have h1 : (idx.filterMap (fun j => ps[j]?)).length = idx.length := by
        rw [List.length_filterMap_eq_countP, List.countP_eq_length]
        intro j hj
        rw [List.getElem?_eq_getElem (hlt j hj)]
        rfl
      rw [← h1, hfm, List.length_map]
    have hn : lis.Nodup := by
      have : (lis.map Subtype.val).Nodup := by rw [hlis]; exact hnd.filter _
      exact this.of_map _
    have ha : ∀ l, l ∈ lis := by
      intro l
      have : l.1 ∈ lis.map Subtype.val := by rw [hlis, List.mem_filter]; exact ⟨hall _, by simp⟩
      obtain ⟨m, hm, he⟩ := List.mem_map.1 this
      rwa [← Subtype.ext he]
    have : Fintype K := Fintype.ofFinite _
    rw [e1, Nat.card_eq_fintype_card, ← List.toFinset_card_of_nodup hn, ← card_univ]
    congr 2
    ext l
    simp [ha]
  unfold spaceGroupIrreps
  simp only [hstar]
  rw [← hidxdef, hct idx hfm]
  congr 1
  unfold PGrp.littleGroupIrreps
  rw [List.map_map, List.map_map, List.map_map]
  refine List.map_congr_left fun ψ hψ => ?_
  simp only [Function.comp_def, if_true]
  congr 1
  funext t
  rw [List.length_map]
  refine List.ext_getElem? fun g => ?_
  by_cases hg : g < ps.length
  swap
  · rw [List.getElem?_eq_none (by simp; omega), List.getElem?_eq_none (by simp; omega)]
  have hgp : ps[g]? = some ps[g] := List.getElem?_eq_getElem hg
  rw [List.getElem?_map, List.getElem?_range hg, List.getElem?_map, hgp, Option.map_some, Option.map_some]
  congr 2
  rw [rowChar, G.equiv_apply]
  unfold induce
  refine sum_list ps hnd hall _ _ fun j p hj => ?_
  have e2 : entry (conjugacyTable T) g j < ps.length ∧ ps[entry (conjugacyTable T) g j]? = some (p⁻¹ * ps[g] * p) := by
    obtain ⟨row, c, h1, h2, h3⟩ := C41_conjugacy_table hT g j ps[g] p hgp hj
    have : entry (conjugacyTable T) g j = c := by
      unfold entry
      rw [List.getD_eq_getElem?_getD, List.getD_eq_getElem?_getD, h1, Option.getD_some, h2, Option.getD_some]
    rw [this]
    exact ⟨(List.getElem?_eq_some_iff.1 h3).1, h3⟩
  have e3 : ((PGrp.embedRow ps.length idx ((lis.map ψ).map fun z => (z.re, z.im))).map fun x => x / (idx.length : ℝ)).getD
      (entry (conjugacyTable T) g j) 0 = (extend K ψ (p⁻¹ * ps[g] * p)).re / (Nat.card K : ℝ) := by
    have := embed_entry ps K idx hidx lis hlt hfm ψ _ _ e2.2
    rw [List.getD_eq_getElem?_getD] at this ⊢
    have hl : entry (conjugacyTable T) g j < (PGrp.embedRow ps.length idx ((lis.map ψ).map fun z => (z.re, z.im))).length := by
      simp [PGrp.embedRow, e2.1]
    rw [List.getElem?_map]
    rw [List.getElem?_eq_getElem hl] at this ⊢
    rw [Option.map_some, Option.getD_some, hcard]
    rw [Option.getD_some] at this
    rw [this]
  have e4 : ((extend K ψ (p⁻¹ * ps[g] * p)).re : ℂ) = extend K ψ (p⁻¹ * ps[g] * p) := by
    apply Complex.ext
    · simp
    · unfold extend
      split
      · simp [hreal ψ hψ]
      · simp
  have e5 : (ps.map fun _ : P => (0 : Fin D → ℝ)).getD g 0 = 0 := by
    rw [List.getD_eq_getElem?_getD, List.getElem?_map, hgp]
    rfl
  have e6 : (ps.map fun p i => Lat.rint (L.component (G.W p *ᵥ k) i)).getD j 0 = fun i => Lat.rint (L.component (G.W p *ᵥ k) i) := by
    rw [List.getD_eq_getElem?_getD, List.getElem?_map, hj]
    rfl
  unfold pointFactor
  rw [e3, e5, zero_dotProduct, e6, transFactor_phase hext (hk p), G.kappa_moved]
  push_cast
  rw [e4]
  simp only [mul_zero, Complex.exp_zero, mul_one]
  ring

theorem rowChar_tr [Fintype P] (G : Symmorphic L P Γ) (hext : ∀ i, 0 < L.extent i) {k : Fin D → ℝ} (hk : L.Allowed k) (K : Subgroup P)
    (ψ : K → ℂ) (z : Fin d → ℤ) :
    rowChar G hext hk K ψ (G.τ (.ofAdd z)) = ψ 1 / (Nat.card K : ℂ) * ∑ p, exp (-I * (((G.W p *ᵥ k) ⬝ᵥ L.shift z : ℝ) : ℂ)) := by
  have : G.equiv (G.τ (.ofAdd z)) = ⟨G.tr z, 1⟩ := by
    rw [← G.equiv_apply, map_one, mul_one]
  rw [rowChar, this, induce, mul_sum]
  refine sum_congr rfl fun p _ => ?_
  rw [G.kappa_moved, phase_apply]
  have : extend K ψ (p⁻¹ * 1 * p) = ψ 1 := by
    unfold extend
    rw [mul_one, inv_mul_cancel, dif_pos K.one_mem]
    rfl
  rw [this]
  ring

theorem rowChar_star [Fintype P] (G : Symmorphic L P Γ) (hext : ∀ i, 0 < L.extent i) {k : Fin D → ℝ} (hk : L.Allowed k) (K : Subgroup P)
    (ψ : K → ℂ) (z : Fin d → ℤ) (g : P) : rowChar G hext hk K ψ (G.τ (.ofAdd z) * G.π g) = G.starChar k K ψ z g := by
  rw [rowChar, G.equiv_apply, induce, Symmorphic.starChar]
  refine sum_congr rfl fun p _ => ?_
  rw [G.kappa_moved, phase_apply]
  rfl

theorem class_fn {H : Type} [Group H] {ψ : H → ℂ} (h : IsIrrChar ψ) (l m : H) : ψ (m * l * m⁻¹) = ψ l := by
  obtain ⟨V, i1, i2, i3, ρ, -, hψ⟩ := h
  rw [hψ, hψ]
  exact Representation.char_conj ρ l m

/-- the rows of one star are different. -/
theorem rowChar_inj [Fintype P] [Finite Γ] (G : Symmorphic L P Γ) (hext : ∀ i, 0 < L.extent i) {k : Fin D → ℝ} (hk : L.Allowed k)
    (ψ ψ' : stab G.act (G.kappa hext hk) → ℂ) (h : IsIrrChar ψ) (h' : IsIrrChar ψ')
    (he : rowChar G hext hk _ ψ = rowChar G hext hk _ ψ') : ψ = ψ' := by
  classical
  by_contra hne
  have : Fintype (stab G.act (G.kappa hext hk)) := Fintype.ofFinite _
  have : Fintype G.Tr := Fintype.ofFinite _
  have h1 := induce_inner G.act (G.kappa hext hk) (G.kappa_norm hext hk) ψ ψ (class_fn h)
  have h2 := induce_inner G.act (G.kappa hext hk) (G.kappa_norm hext hk) ψ ψ' (class_fn h')
  have e : ∀ t g, induce G.act (G.kappa hext hk) _ ψ t g = induce G.act (G.kappa hext hk) _ ψ' t g := by
    intro t g
    obtain ⟨z, rfl⟩ := G.tr_surj t
    have := congrFun he (G.τ (.ofAdd z) * G.π g)
    unfold rowChar at this
    rw [G.equiv_apply] at this
    exact this
  have h3 := h.orthogonal h' hne
  obtain ⟨n, hn, hn1, hn2, -⟩ := h.facts
  simp only [mul_comm] at h3
  simp only [e] at h1 h2
  rw [h1] at h2
  have hc : (Fintype.card (stab G.act (G.kappa hext hk)) : ℂ) ≠ 0 := card_ne
  have hN : (Fintype.card G.Tr : ℂ) ≠ 0 := card_ne
  have hP : (Fintype.card P : ℂ) ≠ 0 := card_ne
  rw [hn2] at h2
  rw [h3, mul_zero] at h2
  exact mul_ne_zero (div_ne_zero (mul_ne_zero hN hP) hc) hc h2

/-- C153: for a symmorphic space group, a wave vector whose images are allowed by the boundary conditions and real irreducible characters
    `ψs` of its little group, `space_group_irreps` returns one row for each of them, holding the values on the elements of the space group
    (in the order of `space_group`) of irreducible characters of the space group, different for different characters of the little
    group, and made of the wave vectors of the star of `k`.  Values within 1e-8 of zero are replaced by zero. -/
theorem C153_irreps [Fintype P] [Finite Γ] (G : Symmorphic L P Γ) (hext : ∀ i, 0 < L.extent i) (ps : List P) (hnd : ps.Nodup)
    (hall : ∀ p, p ∈ ps) (hhead : ps.head? = some 1) (T : List (List Nat)) (hT : IsTable ps T) (k : Fin D → ℝ)
    (hk : ∀ p, L.Allowed (G.W p *ᵥ k)) (K : Subgroup P) [DecidablePred (· ∈ K)] (hK : ∀ p, p ∈ K ↔ L.Equivalent (G.W p *ᵥ k) k)
    (ψs : List (K → ℂ)) (hirr : ∀ ψ ∈ ψs, IsIrrChar ψ) (hreal : ∀ ψ ∈ ψs, ∀ l, (ψ l).im = 0) (lis : List K)
    (hlis : lis.map Subtype.val = ps.filter (· ∈ K)) (ct : List Nat → List (List ℂ))
    (hct : ∀ idx, idx.filterMap (fun j => ps[j]?) = lis.map Subtype.val → ct idx = ψs.map fun ψ => lis.map ψ) :
    ∃ χs : List (Γ → ℂ), χs.length = ψs.length ∧ (∀ χ ∈ χs, IsIrrChar χ) ∧ (ψs.Nodup → χs.Nodup)
      ∧ (∀ (a : Nat) ψ χ, ψs[a]? = some ψ → χs[a]? = some χ → ∀ z,
          χ (G.τ (.ofAdd z)) = ψ 1 / (Nat.card K : ℂ) * ∑ p, exp (-I * (((G.W p *ᵥ k) ⬝ᵥ L.shift z : ℝ) : ℂ))
            ∧ ∀ g, χ (G.τ (.ofAdd z) * G.π g) = G.starChar k K ψ z g)
      ∧ spaceGroupIrreps L T (ps.map G.W) (ps.map fun _ => 0) ct k = .ok (χs.map fun χ =>
          (cells ((List.finRange d).map L.nTrans)).flatMap fun t => ps.map fun p =>
            prune (χ (G.τ (.ofAdd fun i => (t.getD i 0 : ℤ)) * G.π p))) := by
  classical
  have hk1 : L.Allowed k := by simpa using hk 1
  have hrows := rows_eq G hext ps hnd hall hhead T hT k hk hk1 K hK ψs hreal lis hlis ct hct
  obtain rfl : K = stab G.act (G.kappa hext hk1) := by
    ext p
    rw [hK, G.stab_eq]
  have : Fintype G.Tr := Fintype.ofFinite _
  refine ⟨ψs.map (rowChar G hext hk1 _), by simp, ?_, ?_, ?_, ?_⟩
  · intro χ hχ
    obtain ⟨ψ, hψ, rfl⟩ := List.mem_map.1 hχ
    have : Finite (G.Tr ⋊[G.act] P) := Finite.of_equiv _ G.equiv.toEquiv
    exact irr_comp G.equiv (irr_induce G.act (G.kappa hext hk1) (G.kappa_norm hext hk1) ψ (hirr ψ hψ))
  · intro h
    exact List.Nodup.map_on (fun ψ hψ ψ' hψ' he => rowChar_inj G hext hk1 ψ ψ' (hirr ψ hψ) (hirr ψ' hψ') he) h
  · intro a ψ χ h1 h2 z
    rw [List.getElem?_map, h1] at h2
    obtain rfl := Option.some.inj h2
    exact ⟨rowChar_tr G hext hk1 _ ψ z, rowChar_star G hext hk1 _ ψ z⟩
  · rw [hrows, List.map_map]
    rfl

theorem cells_length (ns : List Nat) : (cells ns).length = ns.prod := by
  induction ns with
  | nil => rfl
  | cons n ns ih => simp [cells, List.length_flatMap, ih]

/-- Horner's rule for the number with the digits `z i` to the bases `n i`. -/
theorem cells_at {ι : Type} (n z : ι → Nat) (is : List ι) (h : ∀ i ∈ is, z i < n i) :
    (cells (is.map n))[is.foldl (fun a i => a * n i + z i) 0]? = some (is.map z) := by
  have horner : ∀ (is : List ι) (c : Nat), is.foldl (fun a i => a * n i + z i) c = c * (is.map n).prod + is.foldl (fun a i => a * n i + z i) 0 := by
    intro is
    induction is with
    | nil => intro c; simp
    | cons i is ih =>
      intro c
      rw [List.foldl_cons, List.foldl_cons, ih, ih (0 * n i + z i), List.map_cons, List.prod_cons]
      ring
  induction is with
  | nil => rfl
  | cons i is ih =>
    have h1 := ih fun j hj => h j (List.mem_cons_of_mem _ hj)
    obtain ⟨hlt, hval⟩ := List.getElem?_eq_some_iff.1 h1
    rw [cells_length] at hlt
    rw [List.foldl_cons, horner, zero_mul, zero_add, List.map_cons, cells]
    rw [Lat.flatMap_getElem _ (is.map n).prod (List.range (n i)) (fun x _ => by rw [List.length_map, cells_length]) (z i) _ (z i)
      (List.getElem?_range (h i (by simp))) hlt]
    simp [h1]

/-- C153: the position of the values in the rows: the translation by `z i` cells along the axes followed by the point symmetry number `g`
    is the element number `g + |P| (… (z 0 n 1 + z 1) n 2 + …)`, `n i` being the extent along a periodic axis and 1 along an open one. -/
theorem C153_order [Fintype P] [Finite Γ] (G : Symmorphic L P Γ) (hext : ∀ i, 0 < L.extent i) (ps : List P) (hnd : ps.Nodup)
    (hall : ∀ p, p ∈ ps) (hhead : ps.head? = some 1) (T : List (List Nat)) (hT : IsTable ps T) (k : Fin D → ℝ)
    (hk : ∀ p, L.Allowed (G.W p *ᵥ k)) (K : Subgroup P) [DecidablePred (· ∈ K)] (hK : ∀ p, p ∈ K ↔ L.Equivalent (G.W p *ᵥ k) k)
    (ψs : List (K → ℂ)) (hirr : ∀ ψ ∈ ψs, IsIrrChar ψ) (hreal : ∀ ψ ∈ ψs, ∀ l, (ψ l).im = 0) (lis : List K)
    (hlis : lis.map Subtype.val = ps.filter (· ∈ K)) (ct : List Nat → List (List ℂ))
    (hct : ∀ idx, idx.filterMap (fun j => ps[j]?) = lis.map Subtype.val → ct idx = ψs.map fun ψ => lis.map ψ)
    (n : Fin d → Nat) (hn : ∀ i, (L.pbc i = true → n i = L.extent i) ∧ (L.pbc i = false → n i = 1)) :
    ∃ rows : List (List ℂ), spaceGroupIrreps L T (ps.map G.W) (ps.map fun _ => 0) ct k = .ok rows ∧ rows.length = ψs.length ∧
      ∀ (a : Nat) ψ row, ψs[a]? = some ψ → rows[a]? = some row → row.length = (∏ i, n i) * ps.length ∧
        ∀ (z : Fin d → Nat) (g : Nat) p, (∀ i, z i < n i) → ps[g]? = some p →
          row[(List.finRange d).foldl (fun x i => x * n i + z i) 0 * ps.length + g]?
            = some (prune (G.starChar k K ψ (fun i => (z i : ℤ)) p)) := by
  obtain ⟨χs, h1, _, _, h4, h5⟩ := C153_irreps G hext ps hnd hall hhead T hT k hk K hK ψs hirr hreal lis hlis ct hct
  have hn' : L.nTrans = n := by
    funext i
    unfold Geometry.nTrans
    cases hp : L.pbc i
    · simp [(hn i).2 hp]
    · simp [(hn i).1 hp]
  rw [hn'] at h5
  refine ⟨_, h5, by rw [List.length_map, h1], ?_⟩
  intro a ψ row hψ hrow
  rw [List.getElem?_map] at hrow
  obtain ⟨χ, hχ, rfl⟩ := Option.map_eq_some_iff.1 hrow
  constructor
  · rw [List.length_flatMap]
    simp only [List.length_map, List.map_const', List.sum_replicate, smul_eq_mul]
    rw [cells_length, ← List.prod_ofFn, List.ofFn_eq_map]
  · intro z g p hz hg
    have h6 := cells_at n z (List.finRange d) fun i _ => hz i
    obtain ⟨hlt, hval⟩ := List.getElem?_eq_some_iff.1 h6
    have hg' := (List.getElem?_eq_some_iff.1 hg).1
    rw [Lat.flatMap_getElem _ ps.length _ (fun x _ => by rw [List.length_map]) _ g _ h6 hg']
    simp only [List.getElem?_map, hg, Option.map_some]
    rw [← (h4 a ψ χ hψ hχ (fun i => (z i : ℤ))).2 p]
    congr 6
    funext i
    simp

/-- C153: rows of wave vectors of different stars are values of different functions: no function on the space group has the restriction
    to the translations stated in `C153_irreps` for both. -/
theorem C153_stars [Fintype P] [Finite Γ] (G : Symmorphic L P Γ) (hext : ∀ i, 0 < L.extent i) (k k' : Fin D → ℝ)
    (hk : L.Allowed k) (hk' : L.Allowed k') (hne : ∀ p, ¬L.Equivalent (G.W p *ᵥ k) k') (c c' : ℂ) (hc' : c' ≠ 0)
    (f : Γ → ℂ) (hf : ∀ z, f (G.τ (.ofAdd z)) = c * ∑ p, exp (-I * (((G.W p *ᵥ k) ⬝ᵥ L.shift z : ℝ) : ℂ)))
    (hf' : ∀ z, f (G.τ (.ofAdd z)) = c' * ∑ p, exp (-I * (((G.W p *ᵥ k') ⬝ᵥ L.shift z : ℝ) : ℂ))) : False := by
  classical
  have : Fintype G.Tr := Fintype.ofFinite _
  let κ := G.kappa hext hk
  let κ' := G.kappa hext hk'
  have h1 : ∀ t, c * ∑ p, moved G.act κ p t = c' * ∑ p, moved G.act κ' p t := by
    intro t
    obtain ⟨z, rfl⟩ := G.tr_surj t
    have := (hf z).symm.trans (hf' z)
    convert this using 2
    · exact sum_congr rfl fun p _ => G.kappa_moved hext hk p z
    · exact sum_congr rfl fun p _ => G.kappa_moved hext hk' p z
  have h2 : ∀ (a : ℂ) (κ₁ : G.Tr →* ℂ), ∑ t, (a * ∑ p, moved G.act κ₁ p t) * (starRingEnd ℂ) (κ' t) =
      a * ∑ p, ∑ t, moved G.act κ₁ p t * (starRingEnd ℂ) (κ' t) := by
    intro a κ₁
    rw [sum_comm, mul_sum]
    refine sum_congr rfl fun t _ => ?_
    rw [mul_assoc, sum_mul]
  have hn := G.kappa_norm hext hk
  have hn' := G.kappa_norm hext hk'
  have h3 : ∀ p, ∑ t, moved G.act κ p t * (starRingEnd ℂ) (κ' t) = 0 := by
    intro p
    refine (sum_kappa (moved G.act κ p) κ' (fun t => hn _) hn').2 fun h => hne p ?_
    rw [← Symmorphic.phase_eq]
    intro z
    have := h (G.tr z)
    rw [G.kappa_tr] at this
    rw [← this]
    exact (G.kappa_moved hext hk p z).symm
  have h4 := h2 c κ
  simp only [h1, h3, h2 c' κ'] at h4
  simp only [sum_const_zero, mul_zero] at h4
  have h5 := (mul_eq_zero.1 h4).resolve_left hc'
  have h6 : ∀ p, ∃ r : ℝ, 0 ≤ r ∧ ∑ t, moved G.act κ' p t * (starRingEnd ℂ) (κ' t) = r := by
    intro p
    by_cases h : ∀ t, moved G.act κ' p t = κ' t
    · exact ⟨_, Nat.cast_nonneg (Fintype.card G.Tr), by
        rw [(sum_kappa (moved G.act κ' p) κ' (fun t => hn' _) hn').1 h]; push_cast; rfl⟩
    · exact ⟨0, le_rfl, by rw [(sum_kappa (moved G.act κ' p) κ' (fun t => hn' _) hn').2 h]; simp⟩
  choose r hr hr' using h6
  simp only [hr'] at h5
  have h7 : ∑ p, r p = 0 := by exact_mod_cast h5
  have h8 := (sum_eq_zero_iff_of_nonneg fun p _ => hr p).1 h7 1 (mem_univ _)
  have h9 := hr' 1
  rw [h8, (sum_kappa (moved G.act κ' 1) κ' (fun t => hn' _) hn').1] at h9
  · have : (Fintype.card G.Tr : ℂ) ≠ 0 := card_ne
    exact this (by simpa using h9)
  · intro t
    show κ' (G.act 1⁻¹ t) = κ' t
    rw [inv_one, map_one, MulAut.one_apply]

/-- C153: on a periodic lattice with independent basis vectors every irreducible character of the space group is the function of
    `C153_irreps` for some wave vector allowed by the boundary conditions and some irreducible character of its little group. -/
theorem C153_complete [Fintype P] [Finite Γ] (G : Symmorphic L P Γ) (hext : ∀ i, 0 < L.extent i) (hpbc : ∀ i, L.pbc i = true)
    (hb : LinearIndependent ℝ L.basis) (χ : Γ → ℂ) (hχ : IsIrrChar χ) :
    ∃ k : Fin D → ℝ, (∀ p, L.Allowed (G.W p *ᵥ k)) ∧ ∃ (K : Subgroup P) (ψ : K → ℂ), (∀ p, p ∈ K ↔ L.Equivalent (G.W p *ᵥ k) k)
      ∧ IsIrrChar ψ ∧ ∀ z g, χ (G.τ (.ofAdd z) * G.π g) = G.starChar k K ψ z g := by
  classical
  have : Fintype G.Tr := Fintype.ofFinite _
  obtain ⟨κ, hκ, ψ, hψ, he⟩ := complete G.act (fun x => χ (G.equiv.symm x)) (irr_comp G.equiv.symm hχ)
  obtain ⟨k, hk⟩ := G.exists_wave hb κ hκ
  have hker : ∀ z ∈ G.τ.ker, phase L k z = 1 := by
    intro z hz
    have h1 := hk z.toAdd
    have h2 : G.tr z.toAdd = 1 := Subtype.ext hz
    rw [h2, map_one] at h1
    exact h1.symm
  have hal : ∀ p, L.Allowed (G.W p *ᵥ k) := fun p => G.allowed_of_ker hpbc _ (G.moved_ker k hker p)
  have hk1 : L.Allowed k := G.allowed_of_ker hpbc k hker
  obtain rfl : κ = G.kappa hext hk1 := by
    ext t
    obtain ⟨z, rfl⟩ := G.tr_surj t
    rw [G.kappa_tr, hk]
  refine ⟨k, hal, _, ψ, fun p => G.stab_eq hext hk1 p, hψ, fun z g => ?_⟩
  rw [← rowChar_star G hext hk1, rowChar, ← he, MulEquiv.symm_apply_apply]

/-- C153: `to_reciprocal_lattice` accepts wave vectors allowed by the boundary conditions and returns their coordinates in the basis of
    the allowed wave vectors; it raises an error if a coordinate differs from all integers by more than 1e-8, or is non-zero along
    an axis with open boundaries. -/
theorem C153_reciprocal (L : Geometry d D) (ks : List (Fin D → ℝ)) :
    ((∀ k ∈ ks, L.Allowed k) → ∃ rows : List (Fin d → ℤ), toReciprocal L ks = .ok rows ∧ rows.length = ks.length ∧
      ∀ (j : Nat) k m, ks[j]? = some k → rows[j]? = some m → ∀ i, (k ⬝ᵥ fun x => L.extent i * L.basis i x) = 2 * Real.pi * m i)
    ∧ ((∃ k ∈ ks, ∃ i, (∀ m : ℤ, 1 / 10 ^ 8 < |(k ⬝ᵥ fun x => L.extent i * L.basis i x) / (2 * Real.pi) - m|)
        ∨ (L.pbc i = false ∧ 1 / 10 ^ 8 < |(k ⬝ᵥ fun x => L.extent i * L.basis i x) / (2 * Real.pi)|)) →
      toReciprocal L ks = .error .valueError) := by
  constructor
  · intro h
    refine ⟨_, toReciprocal_ok ks h, by simp, ?_⟩
    intro j k m hj hm i
    rw [List.getElem?_map, hj] at hm
    obtain rfl := Option.some.inj hm
    exact rint_component (h k (List.mem_of_getElem? hj)) i
  · rintro ⟨k, hk, i, hi⟩
    unfold toReciprocal
    split
    · rename_i h1
      have h2 := h1 k hk i
      rw [if_neg]
      intro h3
      unfold isApproxInt at h2
      rcases hi with hi | ⟨hp, hi⟩
      · exact absurd h2 (not_le.2 (hi _))
      · have := (h3 k hk i).resolve_left (by simp [hp])
        rw [this] at h2
        simp only [Int.cast_zero, sub_zero] at h2
        exact absurd h2 (not_le.2 hi)
    · rfl

/-- C153: wave vectors one of whose images under the point group is not allowed raise an error. -/
theorem C153_invalid (L : Geometry d D) (T : List (List Nat)) (W : List (Matrix (Fin D) (Fin D) ℝ)) (w : List (Fin D → ℝ))
    (ct : List Nat → List (List ℂ)) (k : Fin D → ℝ)
    (h : ∃ M ∈ W, ∃ i, (∀ m : ℤ, 1 / 10 ^ 8 < |((M *ᵥ k) ⬝ᵥ fun x => L.extent i * L.basis i x) / (2 * Real.pi) - m|)
        ∨ (L.pbc i = false ∧ 1 / 10 ^ 8 < |((M *ᵥ k) ⬝ᵥ fun x => L.extent i * L.basis i x) / (2 * Real.pi)|)) :
    spaceGroupIrreps L T W w ct k = .error .valueError := by
  unfold spaceGroupIrreps
  obtain ⟨M, hM, hi⟩ := h
  simp only [(C153_reciprocal L (W.map fun M => M *ᵥ k)).2 ⟨M *ᵥ k, List.mem_map_of_mem hM, hi⟩]

/-! the chain of three cells with the wave vector 2π/3: the little group is trivial, the character has dimension two. -/

theorem chain_allowed (n : Nat) (k : ℝ) (m : ℤ) (hk : k * n = 2 * Real.pi * m) (u : ℤˣ) : (chainL n).Allowed (chainW u *ᵥ fun _ => k) := by
  intro i
  refine ⟨(u : ℤ) * m, ?_, by simp [chainL]⟩
  rw [chainW_mul]
  simp only [dotProduct, Geometry.dims, chainL, univ_unique, sum_singleton, Pi.smul_apply, smul_eq_mul, mul_one]
  push_cast
  linear_combination ((u : ℤ) : ℝ) * hk

theorem chain_equivalent (n : Nat) (k k' : ℝ) : (chainL n).Equivalent (fun _ => k) (fun _ => k') ↔ ∃ m : ℤ, k - k' = 2 * Real.pi * m := by
  simp [Geometry.Equivalent, chainL, dotProduct]

theorem chain3_little (u : ℤˣ) :
    u ∈ (⊥ : Subgroup ℤˣ) ↔ (chainL 3).Equivalent (chainW u *ᵥ fun _ => 2 * Real.pi / 3) (fun _ => 2 * Real.pi / 3) := by
  rw [chainW_mul, chain_equivalent, Subgroup.mem_bot]
  have hpi := Real.pi_pos
  rcases units_cases u with rfl | rfl
  · simp only [true_iff]
    exact ⟨0, by simp⟩
  · constructor
    · intro h; exact absurd h (by decide)
    · rintro ⟨m, hm⟩
      exfalso
      have h1 : (-2 : ℝ) = 3 * m := by
        have : Real.pi * (-2 : ℝ) = Real.pi * (3 * m) := by
          push_cast at hm
          linear_combination 3 / 2 * hm
        exact mul_left_cancel₀ hpi.ne' this
      have h2 : (-2 : ℤ) = 3 * m := by exact_mod_cast h1
      omega

example : ∃ χs : List (DihedralGroup 3 → ℂ), χs.length = 1 ∧ (∀ χ ∈ χs, IsIrrChar χ)
    ∧ spaceGroupIrreps (chainL 3) [[0, 1], [1, 0]] [chainW 1, chainW (-1)] [0, 0] (fun _ => [[1]]) (fun _ => 2 * Real.pi / 3) =
      .ok (χs.map fun χ => [[0], [1], [2]].flatMap fun t => [1, -1].map fun p =>
        prune (χ (chainτ 3 (.ofAdd fun i => (t.getD i 0 : ℤ)) * chainπ 3 p))) := by
  have hdec : DecidablePred (· ∈ (⊥ : Subgroup ℤˣ)) := fun u => decidable_of_iff (u = 1) Subgroup.mem_bot.symm
  obtain ⟨χs, h1, h2, -, -, h3⟩ := C153_irreps (chain 3) (fun _ => by simp [chainL]) [1, -1] (by decide)
    (fun u => by rcases units_cases u with rfl | rfl <;> simp) rfl [[0, 1], [1, 0]] chain_table (fun _ => 2 * Real.pi / 3)
    (chain_allowed 3 _ 1 (by push_cast; ring)) ⊥ chain3_little [fun _ => 1] (by
      intro ψ hψ
      rw [List.mem_singleton.1 hψ]
      exact irr_one) (by simp) [1] (by simp) (fun _ => [[1]]) (by simp)
  exact ⟨χs, h1, h2, h3⟩

example : ∃ rows : List (List ℂ), spaceGroupIrreps (chainL 3) [[0, 1], [1, 0]] [chainW 1, chainW (-1)] [0, 0] (fun _ => [[1]])
    (fun _ => 2 * Real.pi / 3) = .ok rows ∧ ∀ row, rows[0]? = some row → row.length = 6 := by
  have hdec : DecidablePred (· ∈ (⊥ : Subgroup ℤˣ)) := fun u => decidable_of_iff (u = 1) Subgroup.mem_bot.symm
  obtain ⟨rows, h1, h2, h3⟩ := C153_order (chain 3) (fun _ => by simp [chainL]) [1, -1] (by decide)
    (fun u => by rcases units_cases u with rfl | rfl <;> simp) rfl [[0, 1], [1, 0]] chain_table (fun _ => 2 * Real.pi / 3)
    (chain_allowed 3 _ 1 (by push_cast; ring)) ⊥ chain3_little [fun _ => 1] (by
      intro ψ hψ
      rw [List.mem_singleton.1 hψ]
      exact irr_one) (by simp) [1] (by simp) (fun _ => [[1]]) (by simp) (fun _ => 3) (fun _ => by simp [chainL])
  exact ⟨rows, h1, fun row h => by simpa using (h3 0 _ row rfl h).1⟩

example : (∀ i, 0 < (chainL 3).extent i) ∧ (∀ i, (chainL 3).pbc i = true) ∧ LinearIndependent ℝ (chainL 3).basis := by
  refine ⟨fun _ => by simp [chainL], fun _ => rfl, ?_⟩
  rw [linearIndependent_unique_iff]
  intro h
  have := congrFun h 0
  simp [chainL] at this

example : ∀ u, ¬(chainL 3).Equivalent ((chain 3).W u *ᵥ fun _ => 0) (fun _ => 2 * Real.pi / 3) := by
  rintro u h
  change (chainL 3).Equivalent (chainW u *ᵥ fun _ => 0) _ at h
  rw [chainW_mul, chain_equivalent] at h
  obtain ⟨m, hm⟩ := h
  have hpi := Real.pi_pos
  have h1 : (-1 : ℝ) = 3 * m := by
    have : Real.pi * (-1 : ℝ) = Real.pi * (3 * m) := by
      linear_combination 3 / 2 * hm
    exact mul_left_cancel₀ hpi.ne' this
  have h2 : (-1 : ℤ) = 3 * m := by exact_mod_cast h1
  omega

example : toReciprocal (chainL 3) [fun _ => Real.pi / 3] = .error .valueError := by
  refine (C153_reciprocal (chainL 3) [fun _ => Real.pi / 3]).2 ⟨_, List.mem_singleton_self _, 0, Or.inl fun m => ?_⟩
  have hpi := Real.pi_pos.ne'
  have h1 : ((fun _ => Real.pi / 3 : Fin 1 → ℝ) ⬝ᵥ fun x => ((chainL 3).extent 0 : ℝ) * (chainL 3).basis 0 x) / (2 * Real.pi) = 1 / 2 := by
    simp [dotProduct, chainL]
    field_simp
  rw [h1, lt_abs]
  rcases le_or_gt m 0 with h | h
  · left
    have : (m : ℝ) ≤ 0 := by exact_mod_cast h
    linarith
  · right
    have : (1 : ℝ) ≤ m := by exact_mod_cast h
    linarith

end Verif.SpaceIrreps
