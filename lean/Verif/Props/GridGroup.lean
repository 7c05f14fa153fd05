import Verif.Lemmas.GridSites
import Verif.Props.PointGroupsOps

/-! C155: the point group that `Grid` chooses for itself, and its action on the sites.

    Specification: a symmetry of the box is `x ↦ o + W (x - o)` where `W` permutes axes of equal extent and equal boundary condition and
    changes signs; `o` is the centre of the box along open axes and the origin along periodic ones.  An array `P` implements such a
    symmetry when it is a permutation of the sites, moves site `P[i]` onto site `i` up to box vectors along periodic axes, and maps
    edges onto edges. -/

namespace Verif.GridPG
open Verif.Hilbert (Err)
open Verif.PGrp Verif.Lat Matrix

variable {d : Nat}

/-- a signed permutation of alike axes (specification). -/
def BoxMatrix (ext : Fin d → Nat) (pbc : Fin d → Bool) (W : Matrix (Fin d) (Fin d) ℝ) : Prop :=
  ∃ (σ : Equiv.Perm (Fin d)) (t : Fin d → ℝ), (∀ i, ext (σ i) = ext i ∧ pbc (σ i) = pbc i) ∧ (∀ i, t i = 1 ∨ t i = -1)
    ∧ ∀ (x : Fin d → ℝ) (i : Fin d), (W *ᵥ x) i = t i * x (σ i)

/-- the fixed point of the symmetries (specification). -/
noncomputable def centre (ext : Fin d → Nat) (pbc : Fin d → Bool) (i : Fin d) : ℝ := if pbc i = true then 0 else ((ext i : ℝ) - 1) / 2

theorem among_iff (ext : Fin d → Nat) (pbc : Fin d → Bool) (W : Matrix (Fin d) (Fin d) ℝ) :
    Among ext pbc (List.finRange d) W ↔ BoxMatrix ext pbc W := by
  constructor
  · rintro ⟨σ, t, h1, h2, _, rfl⟩
    exact ⟨σ, fun i => t (σ i), h1, fun i => h2 _, fun x i => signed_mulVec σ t x i⟩
  · rintro ⟨σ, t, h1, h2, h3⟩
    refine ⟨σ, fun i => t (σ.symm i), h1, fun i => h2 _, fun i hi => absurd (List.mem_finRange i) hi, ?_⟩
    refine Matrix.ext_of_mulVec_single fun j => ?_
    funext i
    rw [h3, signed_mulVec, Equiv.symm_apply_apply]

/-- acting around a fixed point. -/
def Around (o : Fin d → ℝ) (e : PGElem ℝ d) (W : Matrix (Fin d) (Fin d) ℝ) : Prop := Good e ∧ ∀ x, e.act x = some (o + W *ᵥ (x - o))

theorem group_aux (ext : Fin d → Nat) (pbc : Fin d → Bool) (hpos : ∀ i, 0 < ext i) :
    ∃ G Ws, gridPointGroup ext pbc = .ok G ∧ G.cell = none ∧ G.elems.head? = some .id ∧ Ws.Nodup ∧ (∀ W, W ∈ Ws ↔ BoxMatrix ext pbc W)
      ∧ List.Forall₂ (Around (centre ext pbc)) G.elems Ws := by
  obtain ⟨Ws, ⟨es, h1, h2⟩, h3, h4, h5⟩ := stage_all ext pbc hpos
  cases Ws with
  | nil => simp at h3
  | cons W0 Ws =>
    obtain rfl : W0 = 1 := by simpa using h3
    cases h2 with
    | @cons e _ es _ he hes =>
      have hgood : ∀ x ∈ (PGElem.id :: es), Good x := by
        intro x hx
        rcases List.mem_cons.1 hx with rfl | hx
        · trivial
        · obtain ⟨k, hk, rfl⟩ := List.getElem_of_mem hx
          have hk' : k < Ws.length := by rw [← hes.length_eq]; exact hk
          exact ((List.forall₂_iff_get.1 hes).2 k hk hk').1
      obtain ⟨G', g1, g2, g3, g4⟩ := C135_change_origin (⟨.id :: es, none⟩ : PG d) hgood (gridOrigin ext pbc)
      refine ⟨G', 1 :: Ws, ?_, g2, ?_, h4, fun W => (h5 W).trans (among_iff ext pbc W), ?_⟩
      · unfold gridPointGroup
        rw [h1]
        exact g1
      · unfold PG.changeOrigin at g1
        simp only [collect, elemChangeOrigin] at g1
        split at g1
        · cases g1
        · rename_i es' hes'
          cases g1
          split at hes' <;> cases hes'
          rfl
      · have hlin : List.Forall₂ Lin (PGElem.id :: es) (1 :: Ws) := .cons lin_id hes
        have hlen := g4.length_eq
        have hlen2 := hlin.length_eq
        refine List.forall₂_iff_get.2 ⟨hlen.trans hlen2, fun k hk hk' => ?_⟩
        have hk2 : k < (PGElem.id :: es).length := by simpa [hlen] using hk
        have a1 := (List.forall₂_iff_get.1 g4).2 k hk hk2
        have a2 := (List.forall₂_iff_get.1 hlin).2 k hk2 hk'
        refine ⟨g3 _ (List.getElem_mem _), fun x => ?_⟩
        have := a1.2 _ 0 (fun x => by rw [a2.2 x, add_zero]) (x - gridOrigin ext pbc)
        rw [add_sub_cancel] at this
        exact this

theorem boxMatrix_signed (ext : Fin d → Nat) (pbc : Fin d → Bool) (W : Matrix (Fin d) (Fin d) ℝ) (h : BoxMatrix ext pbc W) :
    ∃ (σ : Equiv.Perm (Fin d)) (t : Fin d → ℝ), Compatible ext pbc σ ∧ (∀ i, t i = 1 ∨ t i = -1) ∧ W = signed σ t := by
  obtain ⟨σ, t, h1, h2, _, h3⟩ := (among_iff ext pbc W).2 h
  exact ⟨σ, t, h1, h2, h3⟩

theorem boxMatrix_mul (ext : Fin d → Nat) (pbc : Fin d → Bool) (W V : Matrix (Fin d) (Fin d) ℝ) (hW : BoxMatrix ext pbc W)
    (hV : BoxMatrix ext pbc V) : BoxMatrix ext pbc (W * V) := by
  obtain ⟨σ, t, h1, h2, h3⟩ := hW
  obtain ⟨τ, s, h4, h5, h6⟩ := hV
  refine ⟨σ.trans τ, fun i => t i * s (σ i), fun i => ?_, fun i => ?_, fun x i => ?_⟩
  · have a := h1 i
    have b := h4 (σ i)
    exact ⟨b.1.trans a.1, b.2.trans a.2⟩
  · rcases h2 i with h | h <;> rcases h5 (σ i) with h' | h' <;> simp [h, h']
  · rw [← Matrix.mulVec_mulVec, h3, h6, mul_assoc]; rfl

theorem boxMatrix_tr (ext : Fin d → Nat) (pbc : Fin d → Bool) (W : Matrix (Fin d) (Fin d) ℝ) (hW : BoxMatrix ext pbc W) :
    BoxMatrix ext pbc Wᵀ ∧ Wᵀ * W = 1 ∧ W * Wᵀ = 1 := by
  obtain ⟨σ, t, h1, h2, rfl⟩ := boxMatrix_signed ext pbc W hW
  have ho := signed_orth σ t h2
  refine ⟨?_, ho, mul_eq_one_comm.1 ho⟩
  rw [signed_tr]
  refine ⟨σ.symm, fun i => t i, compatible_symm h1, h2, fun x i => ?_⟩
  rw [signed_mulVec, Equiv.apply_symm_apply]

/-- **C155.** the group `Grid(extent, pbc)` uses when it is given none: its elements are exactly the signed permutations of alike axes around
    the centre, each once, the identity first, and the product table exists (with translations compared modulo any lattice). -/
theorem C155_group (ext : Fin d → Nat) (pbc : Fin d → Bool) (hpos : ∀ i, 0 < ext i) :
    ∃ G Ws, gridPointGroup ext pbc = .ok G ∧ G.cell = none ∧ G.elems.head? = some .id ∧ Ws.Nodup ∧ (∀ W, W ∈ Ws ↔ BoxMatrix ext pbc W)
      ∧ List.Forall₂ (fun e W => ∀ x, e.act x = some (centre ext pbc + W *ᵥ (x - centre ext pbc))) G.elems Ws
      ∧ ∀ {κ : Type} [DecidableEq κ] (canon : Matrix (Fin d ⊕ Unit) (Fin d ⊕ Unit) ℝ → κ) (L : AddSubgroup (Fin d → ℝ)),
        Faithful canon L → ∃ T, productTable canon G.elems = .ok T := by
  obtain ⟨G, Ws, h1, h2, h3, h4, h5, h6⟩ := group_aux ext pbc hpos
  have hof : ∀ e ∈ G.elems, ∃ W ∈ Ws, Around (centre ext pbc) e W := by
    intro e he
    obtain ⟨k, hk, rfl⟩ := List.getElem_of_mem he
    have hk' : k < Ws.length := by rw [← h6.length_eq]; exact hk
    exact ⟨Ws[k], List.getElem_mem hk', (List.forall₂_iff_get.1 h6).2 k hk hk'⟩
  have hfo : ∀ W ∈ Ws, ∃ e ∈ G.elems, Around (centre ext pbc) e W := by
    intro W hW
    obtain ⟨k, hk, rfl⟩ := List.getElem_of_mem hW
    have hk' : k < G.elems.length := by rw [h6.length_eq]; exact hk
    exact ⟨G.elems[k], List.getElem_mem hk', (List.forall₂_iff_get.1 h6).2 k hk' hk⟩
  refine ⟨G, Ws, h1, h2, h3, h4, h5, h6.imp fun e W h => h.2, ?_⟩
  intro κ _ canon L hc
  refine C42_closed hc G.elems (fun e he => ?_) (fun e he => ?_) fun a ha b hb => ?_
  · obtain ⟨W, _, h⟩ := hof e he; exact h.1
  · obtain ⟨W, hW, h⟩ := hof e he
    have ht := boxMatrix_tr ext pbc W ((h5 W).1 hW)
    obtain ⟨e', he', h'⟩ := hfo Wᵀ ((h5 _).2 ht.1)
    refine ⟨e', he', 0, L.zero_mem, fun x => ?_⟩
    rw [h.2 x, Option.bind_some, h'.2, add_sub_cancel_left, Matrix.mulVec_mulVec, ht.2.1, Matrix.one_mulVec, add_sub_cancel, add_zero]
  · obtain ⟨W, hW, h⟩ := hof a ha
    obtain ⟨V, hV, h'⟩ := hof b hb
    obtain ⟨c, hcm, h''⟩ := hfo (W * V) ((h5 _).2 (boxMatrix_mul ext pbc W V ((h5 _).1 hW) ((h5 _).1 hV)))
    refine ⟨c, hcm, 0, L.zero_mem, fun x y hy => ?_⟩
    rw [h'.2 x, Option.bind_some, h.2, add_sub_cancel_left, Matrix.mulVec_mulVec] at hy
    rw [h''.2 x, add_zero, hy]

/-! ### the action on the sites -/

/-- the array `P` implements the symmetry `e` on the sites `cs` of a graph (specification). -/
def Implements (ext : Fin d → Nat) (pbc : Fin d → Bool) (cs : List (List Int)) (edges : List (Nat × Nat)) (P : List Nat) (e : PGElem ℝ d) : Prop :=
  P.Perm (List.range cs.length)
  ∧ (∀ (i j : Nat) (c c' : List Int), P[i]? = some j → cs[i]? = some c → cs[j]? = some c' →
      ∃ m : Fin d → ℤ, (∀ a, pbc a = false → m a = 0)
        ∧ e.act (fun a : Fin d => ((c'.getD a 0 : Int) : ℝ)) = some fun a : Fin d => ((c.getD a 0 : Int) : ℝ) + (m a : ℝ) * (ext a : ℝ))
  ∧ ∀ (i j i' j' : Nat), P[i]? = some i' → P[j]? = some j' → (((i', j') ∈ edges ∨ (j', i') ∈ edges) ↔ ((i, j) ∈ edges ∨ (j, i) ∈ edges))

theorem intPos_ofFn (pbc : Fin d → Bool) (x : Fin d → ℝ) :
    intPos (List.ofFn pbc) (List.ofFn x) = List.ofFn fun i => comparablePeriodic (pbc i) (x i) := by
  induction d with
  | zero => simp [intPos]
  | succ d ih => simp [List.ofFn_succ, intPos, ih]

theorem grid_key (L : Lattice) (ext : Fin d → Nat) (pbc : Fin d → Bool) (hpos : ∀ i, 0 < ext i) (x : Fin d → ℝ) :
    (⟨L, ext, pbc, 1, fun _ => 0⟩ : Sites d).key x = List.ofFn fun i => comparablePeriodic (pbc i) (x i / (ext i : ℝ)) := by
  unfold Sites.key Sites.dims
  rw [intPos_ofFn]
  have hd : (of fun i j => (ext i : ℝ) * (1 : Matrix (Fin d) (Fin d) ℝ) i j) = Matrix.diagonal fun i => (ext i : ℝ) := by
    ext i j
    by_cases h : i = j
    · subst h; simp
    · simp [h]
  simp only
  rw [hd]
  have hinv : (Matrix.diagonal fun i => (ext i : ℝ))⁻¹ = Matrix.diagonal fun i => ((ext i : ℝ))⁻¹ := by
    apply Matrix.inv_eq_right_inv
    rw [Matrix.diagonal_mul_diagonal, ← Matrix.diagonal_one]
    congr 1
    funext i
    exact mul_inv_cancel₀ (by have := hpos i; positivity)
  rw [hinv]
  congr 1
  funext i
  rw [Matrix.vecMul_diagonal, div_eq_mul_inv]

theorem coordsOf_getD (u : Fin d → ℤ) (i : Fin d) : (coordsOf u).getD i 0 = u i := by
  unfold coordsOf
  rw [List.getD_eq_getElem?_getD, List.getElem?_append_left (by simp), List.getElem?_ofFn]
  simp

theorem grid_position (L : Lattice) (ext : Fin d → Nat) (pbc : Fin d → Bool) (c : List Int) :
    (⟨L, ext, pbc, 1, fun _ => 0⟩ : Sites d).position c = fun i : Fin d => ((c.getD i 0 : Int) : ℝ) := by
  unfold Sites.position
  rw [Matrix.vecMul_one]
  funext i
  simp

theorem grid_id (L : Lattice) (ext : Fin d → Nat) (pbc : Fin d → Bool) (hpos : ∀ i, 0 < ext i) (hsmall : ∀ i, ext i < 3326400)
    (hL : L.basisCoords = inner (List.ofFn ext) 1) (u w : Fin d → ℤ) (hu : InBox ext u) (hs : Same ext pbc w u) :
    ∃ j, (⟨L, ext, pbc, 1, fun _ => 0⟩ : Sites d).idFromPosition (fun i => (w i : ℝ)) = .ok j ∧ L.basisCoords[j]? = some (coordsOf u) := by
  unfold Sites.idFromPosition
  have hkey : (⟨L, ext, pbc, 1, fun _ => 0⟩ : Sites d).key (fun i => (w i : ℝ)) = (⟨L, ext, pbc, 1, fun _ => 0⟩ : Sites d).key fun i => (u i : ℝ) := by
    rw [grid_key L ext pbc hpos, grid_key L ext pbc hpos]
    congr 1
    funext i
    have := hs i
    by_cases hp : pbc i = true
    · rw [if_pos hp] at this
      obtain ⟨k, hk⟩ := this
      have he : (ext i : ℝ) ≠ 0 := by have := hpos i; positivity
      have : (w i : ℝ) / (ext i : ℝ) = (u i : ℝ) / (ext i : ℝ) + (k : ℝ) := by
        field_simp
        have h2 : w i = u i + (ext i : ℤ) * k := by omega
        rw [h2]; push_cast; ring
      rw [this, hp, comparablePeriodic_shift]
    · rw [if_neg hp] at this
      rw [this]
  have hpos' : ∀ v : Fin d → ℤ, (⟨L, ext, pbc, 1, fun _ => 0⟩ : Sites d).position (coordsOf v) = fun i => (v i : ℝ) := by
    intro v
    rw [grid_position]
    funext i
    rw [coordsOf_getD]
  obtain ⟨k1, k2, _⟩ := lookup_spec (L.basisCoords.map fun c => (⟨L, ext, pbc, 1, fun _ => 0⟩ : Sites d).key ((⟨L, ext, pbc, 1, fun _ => 0⟩ : Sites d).position c))
    ((⟨L, ext, pbc, 1, fun _ => 0⟩ : Sites d).key fun i => (w i : ℝ))
  have hmem : coordsOf u ∈ L.basisCoords := by rw [hL]; exact (mem_sites ext _).2 ⟨u, hu, rfl⟩
  obtain ⟨j, hj⟩ := k2 (List.mem_map.2 ⟨coordsOf u, hmem, by rw [hpos', hkey]⟩)
  refine ⟨j, hj, ?_⟩
  have := k1 j hj
  rw [List.getElem?_map] at this
  obtain ⟨c, hc, hk⟩ := Option.map_eq_some_iff.1 this
  obtain ⟨v, hv, rfl⟩ := (mem_sites ext c).1 (by rw [← hL]; exact List.mem_of_getElem? hc)
  rw [hc]
  congr 2
  rw [hpos', hkey, grid_key L ext pbc hpos, grid_key L ext pbc hpos] at hk
  have hk' := List.ofFn_injective hk
  funext i
  have := congrFun hk' i
  exact bin_inj (ext i) (pbc i) (0 : ℝ) (hsmall i) (v i) (u i) (hv i) (hu i) (by simpa using this)

/-- what the array of one element contains. -/
theorem elem_perm (L : Lattice) (ext : Fin d → Nat) (pbc : Fin d → Bool) (hpos : ∀ i, 0 < ext i) (hsmall : ∀ i, ext i < 3326400)
    (hL : L.basisCoords = inner (List.ofFn ext) 1) (e : PGElem ℝ d) (W : Matrix (Fin d) (Fin d) ℝ) (he : Around (centre ext pbc) e W)
    (σ : Equiv.Perm (Fin d)) (t : Fin d → ℝ) (hσ : Compatible ext pbc σ) (ht : ∀ i, t i = 1 ∨ t i = -1) (hW : W = signed σ t)
    (s : Fin d → ℤ) (hst : ∀ i, (s i : ℝ) = t i) (hs : ∀ i, s i = 1 ∨ s i = -1) :
    ∃ P, (⟨L, ext, pbc, 1, fun _ => 0⟩ : Sites d).elemPerm e = .ok P ∧ P.length = L.basisCoords.length ∧
      ∀ (i : Nat) (u : Fin d → ℤ), L.basisCoords[i]? = some (coordsOf u) →
        ∃ j, P[i]? = some j ∧ L.basisCoords[j]? = some (coordsOf (reduce ext pbc (move ext pbc σ.symm (fun j => s (σ j)) u))) := by
  have hin : ∀ (i : Nat) (u : Fin d → ℤ), L.basisCoords[i]? = some (coordsOf u) → InBox ext u := by
    intro i u h
    obtain ⟨v, hv, h'⟩ := (mem_sites ext _).1 (by rw [← hL]; exact List.mem_of_getElem? h)
    rw [coordsOf_inj h']; exact hv
  cases e with
  | other => exact absurd he.1 id
  | id =>
    have hW1 : signed σ t = signed (1 : Equiv.Perm (Fin d)) fun _ => 1 := by
      rw [signed_one]
      refine (act_unique _ _ (centre ext pbc - signed σ t *ᵥ centre ext pbc) 0 fun x => ?_).1
      have := he.2 x
      simp only [PGElem.act, Option.some.injEq, hW, Matrix.mulVec_sub] at this
      rw [Matrix.one_mulVec, add_zero]
      conv_rhs => rw [this]
      abel
    obtain ⟨rfl, rfl⟩ := signed_inj _ _ _ _ (fun i => sign_ne_zero (ht i)) hW1
    refine ⟨_, rfl, by simp [Lattice.nNodes], fun i u h => ⟨i, ?_, ?_⟩⟩
    · rw [List.getElem?_range (by exact (List.getElem?_eq_some_iff.1 h).1)]
    · rw [h]
      congr 2
      have hs1 : ∀ i, s i = 1 := fun i => by have h := hst i; simp only at h; exact_mod_cast h
      have : move ext pbc (Equiv.symm 1) (fun j => s ((1 : Equiv.Perm (Fin d)) j)) u = u := by
        funext i
        unfold move
        rw [if_pos (hs1 _)]; rfl
      rw [this]
      funext i
      have hi := hin _ _ h i
      unfold reduce
      split_ifs
      · rw [Int.emod_eq_of_lt hi.1 hi.2]
      · rfl
  | sym p =>
    have hpre : ∀ (u : Fin d → ℤ), p.preimage (fun i => (u i : ℝ)) = fun i => (move ext pbc σ.symm (fun j => s (σ j)) u i : ℝ) := by
      intro u
      have h1 := (C42_preimage p he.1 fun i => (u i : ℝ)).1
      have h2 := he.2 (p.preimage fun i => (u i : ℝ))
      simp only [PGElem.act, Option.some.injEq] at h2
      rw [h1] at h2
      have h3 : W *ᵥ (p.preimage (fun i => (u i : ℝ)) - centre ext pbc) = (fun i => (u i : ℝ)) - centre ext pbc := by
        conv_rhs => rw [h2]
        abel
      have h4 : p.preimage (fun i => (u i : ℝ)) = centre ext pbc + Wᵀ *ᵥ ((fun i => (u i : ℝ)) - centre ext pbc) := by
        rw [← h3, Matrix.mulVec_mulVec, hW, signed_orth σ t ht, Matrix.one_mulVec, add_sub_cancel]
      rw [h4, hW, signed_tr]
      funext i
      rw [Pi.add_apply, signed_mulVec, Equiv.apply_symm_apply, Pi.sub_apply]
      have hc := compatible_symm hσ i
      have hcc : centre ext pbc (σ.symm i) = centre ext pbc i := by unfold centre; rw [hc.1, hc.2]
      rw [hcc, ← hst i]
      unfold move
      simp only [Equiv.apply_symm_apply]
      unfold centre
      rcases hs i with h | h
      · rw [if_pos h, h]; push_cast; ring
      · have h' : ¬s i = 1 := by rw [h]; decide
        rw [if_neg h', h]
        split_ifs
        · push_cast; ring
        · push_cast; ring
    obtain ⟨P, hP, hf⟩ := collect_ok (fun c => (⟨L, ext, pbc, 1, fun _ => 0⟩ : Sites d).idFromPosition (p.preimage ((⟨L, ext, pbc, 1, fun _ => 0⟩ : Sites d).position c)))
      (fun j c => ∀ u : Fin d → ℤ, c = coordsOf u → L.basisCoords[j]? = some (coordsOf (reduce ext pbc (move ext pbc σ.symm (fun j => s (σ j)) u))))
      L.basisCoords (fun c => c) (by
        intro c hc
        obtain ⟨u, hu, rfl⟩ := (mem_sites ext c).1 (by rw [← hL]; exact hc)
        have hposu : (⟨L, ext, pbc, 1, fun _ => 0⟩ : Sites d).position (coordsOf u) = fun i => (u i : ℝ) := by
          rw [grid_position]; funext i; rw [coordsOf_getD]
        rw [hposu, hpre]
        obtain ⟨j, hj, hj'⟩ := grid_id L ext pbc hpos hsmall hL (reduce ext pbc (move ext pbc σ.symm (fun j => s (σ j)) u))
          (move ext pbc σ.symm (fun j => s (σ j)) u) (reduce_inBox ext pbc hpos (compatible_symm hσ) _ u hu) (same_symm (reduce_same ext pbc _))
        refine ⟨j, hj, fun v hv => ?_⟩
        rw [← coordsOf_inj hv]; exact hj')
    rw [List.map_id'] at hf
    refine ⟨P, hP, hf.length_eq, fun i u h => ?_⟩
    obtain ⟨hi, hi'⟩ := List.getElem?_eq_some_iff.1 h
    have hiP : i < P.length := by rw [hf.length_eq]; exact hi
    refine ⟨P[i], List.getElem?_eq_getElem hiP, ?_⟩
    have := (List.forall₂_iff_get.1 hf).2 i hiP hi
    exact this u hi'

theorem implements_of (L : Lattice) (ext : Fin d → Nat) (pbc : Fin d → Bool) (hpos : ∀ i, 0 < ext i) (hsmall : ∀ i, ext i < 3326400)
    (hL : L.basisCoords = inner (List.ofFn ext) 1)
    (hedge : ∀ (a b : Nat) (u v : List Int), L.basisCoords[a]? = some u → L.basisCoords[b]? = some v →
        (((a, b) ∈ L.edges ∨ (b, a) ∈ L.edges) ↔ u ≠ v ∧ (WrapStep (List.ofFn ext) (List.ofFn pbc) u v ∨ WrapStep (List.ofFn ext) (List.ofFn pbc) v u)))
    (e : PGElem ℝ d) (W : Matrix (Fin d) (Fin d) ℝ) (he : Around (centre ext pbc) e W) (hW : BoxMatrix ext pbc W) :
    ∃ P, (⟨L, ext, pbc, 1, fun _ => 0⟩ : Sites d).elemPerm e = .ok P ∧ Implements ext pbc L.basisCoords L.edges P e := by
  obtain ⟨σ, t, hσ, ht, hWs⟩ := boxMatrix_signed ext pbc W hW
  obtain ⟨s, hst, hs⟩ : ∃ s : Fin d → ℤ, (∀ i, (s i : ℝ) = t i) ∧ ∀ i, s i = 1 ∨ s i = -1 := by
    refine ⟨fun i => if t i = 1 then 1 else -1, fun i => ?_, fun i => ?_⟩
    · rcases ht i with h | h
      · simp [h]
      · have h' : ¬t i = 1 := by rw [h]; norm_num
        simp only [if_neg h']; rw [h]; simp
    · simp only; split_ifs <;> simp
  obtain ⟨P, hP, hlen, hP'⟩ := elem_perm L ext pbc hpos hsmall hL e W he σ t hσ ht hWs s hst hs
  have hnd : L.basisCoords.Nodup := by rw [hL]; exact inner_nodup _ _
  have hsite : ∀ (i : Nat) c, L.basisCoords[i]? = some c → ∃ u, InBox ext u ∧ c = coordsOf u := by
    intro i c h
    exact (mem_sites ext c).1 (by rw [← hL]; exact List.mem_of_getElem? h)
  have hat : ∀ i j : Nat, P[i]? = some j → ∃ u, InBox ext u ∧ L.basisCoords[i]? = some (coordsOf u) ∧
      L.basisCoords[j]? = some (coordsOf (reduce ext pbc (move ext pbc σ.symm (fun j => s (σ j)) u))) := by
    intro i j h
    have hi : i < L.basisCoords.length := by rw [← hlen]; exact (List.getElem?_eq_some_iff.1 h).1
    obtain ⟨u, hu, hc⟩ := hsite i _ (List.getElem?_eq_getElem hi)
    have hi' : L.basisCoords[i]? = some (coordsOf u) := by rw [List.getElem?_eq_getElem hi, hc]
    obtain ⟨j', h1, h2⟩ := hP' i u hi'
    obtain rfl : j = j' := Option.some.inj (h.symm.trans h1)
    exact ⟨u, hu, hi', h2⟩
  have hcs := compatible_symm hσ
  refine ⟨P, hP, ?_, ?_, ?_⟩
  · -- a permutation
    have hPnd : P.Nodup := by
      rw [List.nodup_iff_injective_get]
      intro a b hab
      obtain ⟨u, hu, h1, h2⟩ := hat a _ (List.getElem?_eq_getElem a.2)
      obtain ⟨v, hv, h3, h4⟩ := hat b _ (List.getElem?_eq_getElem b.2)
      have hab' : P[(a : Nat)] = P[(b : Nat)] := hab
      rw [hab', h4] at h2
      have h5 := coordsOf_inj (Option.some.inj h2)
      have h6 : Same ext pbc (move ext pbc σ.symm (fun j => s (σ j)) u) (move ext pbc σ.symm (fun j => s (σ j)) v) :=
        same_trans (same_symm (reduce_same _ _ _)) (h5 ▸ reduce_same _ _ _)
      have h7 := move_same (compatible_symm hcs) (fun j => s (σ (σ.symm j))) h6
      rw [move_move hcs (fun j => s (σ j)) u, move_move hcs (fun j => s (σ j)) v] at h7
      have h8 := same_inBox hu hv h7
      subst h8
      apply Fin.ext
      have ha := (List.getElem?_eq_some_iff.1 h1)
      have hb := (List.getElem?_eq_some_iff.1 h3)
      exact (List.Nodup.getElem_inj_iff hnd).1 (ha.2.trans hb.2.symm)
    refine (List.subperm_of_subset hPnd fun x hx => ?_).perm_of_length_le (by simp [hlen])
    obtain ⟨i, hi⟩ := List.mem_iff_getElem?.1 hx
    obtain ⟨u, _, _, h2⟩ := hat i x hi
    exact List.mem_range.2 (List.getElem?_eq_some_iff.1 h2).1
  · -- positions
    intro i j c c' hij hc hc'
    obtain ⟨u, hu, h1, h2⟩ := hat i j hij
    obtain rfl := Option.some.inj (hc.symm.trans h1)
    obtain rfl := Option.some.inj (hc'.symm.trans h2)
    simp only [coordsOf_getD]
    have h3 : Same ext pbc (move ext pbc σ s (reduce ext pbc (move ext pbc σ.symm (fun j => s (σ j)) u))) u := by
      refine same_trans (move_same hσ s (reduce_same ext pbc _)) ?_
      have := move_move hcs (fun j => s (σ j)) u
      simp only [Equiv.apply_symm_apply, Equiv.symm_symm] at this
      rw [this]
      exact same_refl _ _ _
    set y := reduce ext pbc (move ext pbc σ.symm (fun j => s (σ j)) u) with hy
    have hact : e.act (fun a => (y a : ℝ)) = some fun a => (move ext pbc σ s y a : ℝ) := by
      rw [he.2, hWs]
      congr 1
      funext a
      rw [Pi.add_apply, signed_mulVec, Pi.sub_apply]
      have hcc : centre ext pbc (σ a) = centre ext pbc a := by unfold centre; rw [(hσ a).1, (hσ a).2]
      rw [hcc, ← hst]
      unfold move centre
      rcases hs (σ a) with h | h
      · rw [if_pos h, h]; push_cast; ring
      · have h' : ¬s (σ a) = 1 := by rw [h]; decide
        rw [if_neg h', h]
        split_ifs
        · push_cast; ring
        · push_cast; ring
    refine ⟨fun a => if pbc a = true then (move ext pbc σ s y a - u a) / (ext a : ℤ) else 0, fun a ha => by simp [ha], ?_⟩
    rw [hact]
    congr 1
    funext a
    have h4 := h3 a
    beta_reduce
    by_cases hp : pbc a = true
    · rw [if_pos hp] at h4 ⊢
      have h5 := Int.ediv_mul_cancel h4
      have h6 : move ext pbc σ s y a = u a + (move ext pbc σ s y a - u a) / (ext a : ℤ) * (ext a : ℤ) := by omega
      have h7 := congrArg (fun z : ℤ => (z : ℝ)) h6
      push_cast at h7
      exact_mod_cast h7
    · rw [if_neg hp] at h4 ⊢
      rw [h4]; simp
  · -- edges
    intro i j i' j' hi hj
    obtain ⟨u, hu, h1, h2⟩ := hat i i' hi
    obtain ⟨v, hv, h3, h4⟩ := hat j j' hj
    have hne : ∀ w z : Fin d → ℤ, coordsOf w ≠ coordsOf z ↔ w ≠ z := fun w z => ⟨fun h h' => h (by rw [h']), fun h h' => h (coordsOf_inj h')⟩
    rw [hedge i' j' _ _ h2 h4, hedge i j _ _ h1 h3, hne, hne,
      adj_wrap ext pbc _ _ (reduce_inBox ext pbc hpos hcs _ u hu) (reduce_inBox ext pbc hpos hcs _ v hv), adj_wrap ext pbc u v hu hv,
      adj_congr (reduce_same ext pbc _) (reduce_same ext pbc _)]
    exact move_adj hcs _ (fun i => hs _) u v

theorem grid_mk (ext : Fin d → Nat) (pbc : Fin d → Bool) (hpos : ∀ i, 0 < ext i) (hext : ∃ i, pbc i = true ∨ 2 ≤ ext i) :
    ∃ L, mkGrid (List.ofFn ext) (List.ofFn pbc) = .ok L ∧ L.basisCoords = inner (List.ofFn ext) 1
      ∧ ∀ (a b : Nat) (u v : List Int), L.basisCoords[a]? = some u → L.basisCoords[b]? = some v →
        (((a, b) ∈ L.edges ∨ (b, a) ∈ L.edges) ↔ u ≠ v ∧ (WrapStep (List.ofFn ext) (List.ofFn pbc) u v ∨ WrapStep (List.ofFn ext) (List.ofFn pbc) v u)) := by
  obtain ⟨L, h1, h2, h3, _⟩ := C35_grid_edges (List.ofFn ext) (List.ofFn pbc) (by simp) (by
      intro e he
      obtain ⟨i, rfl⟩ := (List.mem_ofFn' _ _).1 he
      exact hpos i) (by
      obtain ⟨i, hi⟩ := hext
      refine ⟨(ext i, pbc i), ?_, hi⟩
      refine List.mem_iff_getElem.2 ⟨i, by simp, ?_⟩
      simp)
  exact ⟨L, h1, h2, h3⟩

/-- **C155.** the arrays of `point_group` and of `rotation_group` on a grid: each implements its element. -/
theorem C155_sites (ext : Fin d → Nat) (pbc : Fin d → Bool) (hpos : ∀ i, 0 < ext i) (hsmall : ∀ i, ext i < 3326400)
    (hext : ∃ i, pbc i = true ∨ 2 ≤ ext i) :
    ∃ S G Ps R Rs, gridSites ext pbc = .ok S ∧ gridPointGroup ext pbc = .ok G ∧ S.pointGroup G = .ok Ps
      ∧ List.Forall₂ (Implements ext pbc S.lattice.basisCoords S.lattice.edges) Ps G.elems
      ∧ G.rotationGroup = .ok R ∧ S.rotationGroup G = .ok Rs
      ∧ List.Forall₂ (Implements ext pbc S.lattice.basisCoords S.lattice.edges) Rs R.elems
      ∧ List.Sublist Rs Ps := by
  obtain ⟨L, h1, h2, h3⟩ := grid_mk ext pbc hpos hext
  obtain ⟨G, Ws, g1, g2, g3, g4, g5, g6⟩ := group_aux ext pbc hpos
  have hof : ∀ e ∈ G.elems, ∃ W ∈ Ws, Around (centre ext pbc) e W := by
    intro e he
    obtain ⟨k, hk, rfl⟩ := List.getElem_of_mem he
    have hk' : k < Ws.length := by rw [← g6.length_eq]; exact hk
    exact ⟨Ws[k], List.getElem_mem hk', (List.forall₂_iff_get.1 g6).2 k hk hk'⟩
  have hall : ∀ es : List (PGElem ℝ d), (∀ e ∈ es, e ∈ G.elems) → ∃ Ps, collect (⟨L, ext, pbc, 1, fun _ => 0⟩ : Sites d).elemPerm es = .ok Ps ∧
      List.Forall₂ (Implements ext pbc L.basisCoords L.edges) Ps es := by
    intro es hes
    have := collect_ok (⟨L, ext, pbc, 1, fun _ => 0⟩ : Sites d).elemPerm (Implements ext pbc L.basisCoords L.edges) es (fun e => e) (by
      intro e he
      obtain ⟨W, hW, ha⟩ := hof e (hes e he)
      exact implements_of L ext pbc hpos hsmall h2 h3 e W ha ((g5 W).1 hW))
    rwa [List.map_id'] at this
  have hgood : ∀ e ∈ G.elems, Good e := fun e he => by obtain ⟨W, _, h⟩ := hof e he; exact h.1
  obtain ⟨Ps, p1, p2⟩ := hall G.elems fun e he => he
  have hr := C135_rotation_group G hgood
  obtain ⟨Rs, r1, r2⟩ := hall (G.elems.filter fun e => @decide (Proper e) (Classical.propDecidable _)) fun e he => (List.mem_filter.1 he).1
  refine ⟨⟨L, ext, pbc, 1, fun _ => 0⟩, G, Ps, _, Rs, ?_, g1, p1, p2, hr, ?_, r2, ?_⟩
  · unfold gridSites; rw [h1]
  · unfold Sites.rotationGroup; rw [hr]; exact r1
  · have hsub : ∀ (es fs : List (PGElem ℝ d)) Qs Rs, List.Sublist fs es → collect (⟨L, ext, pbc, 1, fun _ => 0⟩ : Sites d).elemPerm es = .ok Qs →
        collect (⟨L, ext, pbc, 1, fun _ => 0⟩ : Sites d).elemPerm fs = .ok Rs → List.Sublist Rs Qs := by
      intro es fs Qs Rs h
      induction h generalizing Qs Rs with
      | slnil => intro h1 h2; simp only [collect] at h1 h2; cases h1; cases h2; exact .slnil
      | cons a _ ih =>
        intro h1 h2
        simp only [collect] at h1
        split at h1
        · cases h1
        · split at h1
          · cases h1
          · rename_i h; cases h1; exact (ih _ _ h h2).cons _
      | cons_cons a _ ih =>
        intro h1 h2
        simp only [collect] at h1 h2
        split at h1
        · cases h1
        · rename_i b hb
          rw [hb] at h2
          split at h1
          · cases h1
          · rename_i h
            simp only at h2
            split at h2
            · cases h2
            · rename_i h'; cases h1; cases h2; exact (ih _ _ h h').cons_cons _
    exact hsub _ _ Ps Rs List.filter_sublist p1 r1

/-! ## Cases -/

/-- a quarter turn is one of the matrices for a square torus, and a reflection (but no quarter turn) one of those for a ladder. -/
example : BoxMatrix (fun _ : Fin 2 => 3) (fun _ => true) !![0, -1; 1, 0] ∧ BoxMatrix (![4, 2] : Fin 2 → Nat) (fun _ => true) !![1, 0; 0, -1]
    ∧ ¬BoxMatrix (![4, 2] : Fin 2 → Nat) (fun _ => true) !![0, -1; 1, 0] := by
  refine ⟨⟨Equiv.swap 0 1, ![-1, 1], by decide, fun i => by fin_cases i <;> simp, fun x i => by fin_cases i <;> simp [Matrix.mulVec, dotProduct, Fin.sum_univ_two]⟩,
    ⟨1, ![1, -1], by decide, fun i => by fin_cases i <;> simp, fun x i => by fin_cases i <;> simp [Matrix.mulVec, dotProduct, Fin.sum_univ_two]⟩, ?_⟩
  rintro ⟨σ, t, h1, h2, h3⟩
  have e : σ 0 = 0 := by
    have := (h1 0).1
    generalize σ 0 = k at this ⊢
    fin_cases k
    · rfl
    · simp at this
  have := h3 ![1, 0] 0
  rw [e] at this
  have h4 := h2 0
  simp [Matrix.mulVec, dotProduct, Fin.sum_univ_two] at this
  rw [← this] at h4
  norm_num at h4

/-- hypotheses of `C155_sites` for a ladder. -/
example : (∀ i : Fin 2, 0 < (![4, 2] : Fin 2 → Nat) i) ∧ (∀ i : Fin 2, (![4, 2] : Fin 2 → Nat) i < 3326400)
    ∧ ∃ i : Fin 2, (![true, false] : Fin 2 → Bool) i = true ∨ 2 ≤ (![4, 2] : Fin 2 → Nat) i := by decide

end Verif.GridPG
