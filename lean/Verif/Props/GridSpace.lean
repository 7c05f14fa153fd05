import Verif.Props.FloatBins
import Verif.Props.GridGroup
import Verif.Props.SpaceGroup

/-! C155 continued: translations as permutations of sites, and the space group of a grid. -/

namespace Verif.GridPG
open Verif.Hilbert (Err)
open Verif.PGrp Verif.Lat Matrix

variable {d : Nat}

/-! ### keys of arbitrary lattices -/

theorem key_of_frac (S : Sites d) (hb : IsUnit S.basis.det) (hpos : ∀ i, 0 < S.ext i) (f : Fin d → ℝ) :
    S.key (f ᵥ* S.basis) = List.ofFn fun i => comparablePeriodic (S.pbc i) (f i / (S.ext i : ℝ)) := by
  unfold Sites.key Sites.dims
  rw [intPos_ofFn]
  have hd : (of fun i j => (S.ext i : ℝ) * S.basis i j) = Matrix.diagonal (fun i => (S.ext i : ℝ)) * S.basis := by
    ext i j; rw [Matrix.diagonal_mul]; rfl
  rw [hd]
  have hinv : (Matrix.diagonal (fun i => (S.ext i : ℝ)) * S.basis)⁻¹ = S.basis⁻¹ * Matrix.diagonal fun i => ((S.ext i : ℝ))⁻¹ := by
    apply Matrix.inv_eq_right_inv
    rw [Matrix.mul_assoc, ← Matrix.mul_assoc S.basis, Matrix.mul_nonsing_inv _ hb, Matrix.one_mul, Matrix.diagonal_mul_diagonal, ← Matrix.diagonal_one]
    congr 1
    funext i
    exact mul_inv_cancel₀ (by have := hpos i; positivity)
  rw [hinv, Matrix.vecMul_vecMul, ← Matrix.mul_assoc, Matrix.mul_nonsing_inv _ hb, Matrix.one_mul]
  congr 1
  funext i
  rw [Matrix.vecMul_diagonal, div_eq_mul_inv]

/-- the cell before along an axis. -/
def backAt (ext : Fin d → Nat) (a : Fin d) (u : Fin d → ℤ) : Fin d → ℤ := fun i => if i = a then (u i - 1) % (ext i : ℤ) else u i

/-- coordinates with the number of the site in its cell. -/
def coordsIn (u : Fin d → ℤ) (q : Nat) : List Int := List.ofFn u ++ [(q : Int)]

theorem mem_inner (ext : Fin d → Nat) (nb : Nat) (c : List Int) :
    c ∈ inner (List.ofFn ext) nb ↔ ∃ u q, InBox ext u ∧ q < nb ∧ c = coordsIn u q := by
  induction d generalizing c with
  | zero =>
    unfold inner
    simp only [List.ofFn_zero, List.map_nil, List.nil_append]
    rw [mem_cart_cons]
    constructor
    · rintro ⟨x, xs, rfl, hx, hxs⟩
      rw [mem_cart_nil] at hxs
      rw [mem_upto] at hx
      subst hxs
      exact ⟨Fin.elim0, x.toNat, fun i => i.elim0, by omega, by simp [coordsIn]; omega⟩
    · rintro ⟨u, q, _, hq, rfl⟩
      exact ⟨q, [], rfl, (mem_upto nb q).2 (by omega), (mem_cart_nil _).2 rfl⟩
  | succ d ih =>
    unfold inner at ih ⊢
    rw [List.ofFn_succ, List.map_cons, List.cons_append, mem_cart_cons]
    constructor
    · rintro ⟨x, xs, rfl, hx, hxs⟩
      obtain ⟨u, q, hu, hq, rfl⟩ := (ih (fun i => ext i.succ) xs).1 hxs
      rw [mem_upto] at hx
      refine ⟨Fin.cons x u, q, fun i => ?_, hq, ?_⟩
      · refine Fin.cases ?_ (fun j => ?_) i
        · exact hx
        · exact hu j
      · simp [coordsIn, List.ofFn_succ]
    · rintro ⟨u, q, hu, hq, rfl⟩
      refine ⟨u 0, coordsIn (fun i => u i.succ) q, by simp [coordsIn, List.ofFn_succ], (mem_upto _ _).2 (hu 0), ?_⟩
      exact (ih (fun i => ext i.succ) _).2 ⟨_, q, fun i => hu i.succ, hq, rfl⟩

theorem coordsIn_getD (u : Fin d → ℤ) (q : Nat) (i : Fin d) : (coordsIn u q).getD i 0 = u i := by
  unfold coordsIn
  rw [List.getD_eq_getElem?_getD, List.getElem?_append_left (by simp), List.getElem?_ofFn]
  simp

theorem coordsIn_last (u : Fin d → ℤ) (q : Nat) : ((coordsIn u q).getLast?.getD 0).toNat = q := by simp [coordsIn]

theorem backAt_inBox (ext : Fin d → Nat) (a : Fin d) (u : Fin d → ℤ) (hu : InBox ext u) : InBox ext (backAt ext a u) := by
  intro i
  have := hu i
  unfold backAt
  split_ifs
  · exact ⟨Int.emod_nonneg _ (by omega), Int.emod_lt_of_pos _ (by omega)⟩
  · exact this

/-- the number of a cell. -/
def cellNo (ext : Fin d → Nat) (u : Fin d → ℤ) : Int := radix (List.ofFn ext) (List.ofFn u)

theorem radix_append (es : List Nat) (xs : List Int) (nb : Nat) (q : Int) (h : es.length = xs.length) :
    radix (es ++ [nb]) (xs ++ [q]) = radix es xs * (nb : Int) + q := by
  induction es generalizing xs with
  | nil => cases xs <;> simp [radix] at h ⊢
  | cons e es ih =>
    cases xs with
    | nil => simp at h
    | cons x xs =>
      simp only [List.cons_append, radix]
      rw [ih xs (by simpa using h), List.prod_append, List.prod_singleton]
      push_cast; ring

theorem cellNo_bound (ext : Fin d → Nat) (u : Fin d → ℤ) (hu : InBox ext u) : 0 ≤ cellNo ext u ∧ cellNo ext u < (((List.ofFn ext).prod : Nat) : Int) := by
  induction d with
  | zero => simp [cellNo, radix]
  | succ d ih =>
    have h1 := ih (fun i => ext i.succ) (fun i => u i.succ) fun i => hu i.succ
    have h0 := hu 0
    unfold cellNo at h1 ⊢
    rw [List.ofFn_succ, List.ofFn_succ, radix, List.prod_cons]
    set p : Int := (((List.ofFn fun i => ext (Fin.succ i)).prod : Nat) : Int)
    have h2 : 0 ≤ u 0 * p := mul_nonneg h0.1 (by omega)
    have h3 : (u 0 + 1) * p ≤ (ext 0 : Int) * p := Int.mul_le_mul_of_nonneg_right (by omega) (by omega)
    rw [Nat.cast_mul]
    change 0 ≤ u 0 * p + _ ∧ u 0 * p + _ < (ext 0 : Int) * p
    constructor
    · omega
    · have : (u 0 + 1) * p = u 0 * p + p := by ring
      omega

theorem cellNo_back (ext : Fin d → Nat) (a : Fin d) (u : Fin d → ℤ) (hu : InBox ext u) :
    (Grp.cellBack (List.ofFn ext) a (cellNo ext u).toNat : Int) = cellNo ext (backAt ext a u) := by
  induction d with
  | zero => exact a.elim0
  | succ d ih =>
    have hu' : InBox (fun i => ext i.succ) fun i => u i.succ := fun i => hu i.succ
    have h0 := hu 0
    have hb := cellNo_bound (fun i => ext i.succ) (fun i => u i.succ) hu'
    have hnat : (cellNo ext u).toNat = (u 0).toNat * (List.ofFn fun i : Fin d => ext i.succ).prod + (cellNo (fun i => ext i.succ) fun i => u i.succ).toNat := by
      apply Int.natCast_inj.1
      rw [Int.toNat_of_nonneg (cellNo_bound ext u hu).1]
      push_cast
      rw [Int.toNat_of_nonneg h0.1, Int.toNat_of_nonneg hb.1]
      unfold cellNo
      rw [List.ofFn_succ, List.ofFn_succ, radix]
      push_cast
      rfl
    set r := (cellNo (fun i => ext i.succ) fun i => u i.succ).toNat with hr
    set p := (List.ofFn fun i : Fin d => ext i.succ).prod with hp
    have hrp : r < p := by omega
    have hdiv : ((u 0).toNat * p + r) / p = (u 0).toNat := by
      rw [Nat.mul_comm, Nat.mul_add_div (by omega), Nat.div_eq_of_lt hrp, Nat.add_zero]
    have hmod : ((u 0).toNat * p + r) % p = r := by
      rw [Nat.mul_comm, Nat.mul_add_mod, Nat.mod_eq_of_lt hrp]
    rw [hnat]
    have hcell : cellNo ext (backAt ext a u) = backAt ext a u 0 * (p : Int) + cellNo (fun i => ext i.succ) (fun i => backAt ext a u i.succ) := by
      unfold cellNo
      rw [List.ofFn_succ, List.ofFn_succ (f := backAt ext a u), radix]
    rw [hcell, List.ofFn_succ]
    refine Fin.cases ?_ (fun b => ?_) a
    · simp only [Fin.val_zero, Grp.cellBack]
      rw [← hp, hdiv, hmod]
      have e1 : (fun i : Fin d => backAt ext 0 u i.succ) = fun i => u i.succ := by
        funext i
        unfold backAt
        rw [if_neg (Fin.succ_ne_zero i)]
      have e2 : backAt ext 0 u 0 = (u 0 - 1) % (ext 0 : ℤ) := by unfold backAt; rw [if_pos rfl]
      rw [e1, e2]
      push_cast
      have e3 : ((ext 0 - 1 : Nat) : Int) = (ext 0 : Int) - 1 := by omega
      rw [Int.toNat_of_nonneg h0.1, e3, hr, Int.toNat_of_nonneg hb.1]
      have e4 : (u 0 + ((ext 0 : Int) - 1)) % (ext 0 : Int) = (u 0 - 1) % (ext 0 : Int) := by
        rw [show u 0 + ((ext 0 : Int) - 1) = (u 0 - 1) + (ext 0 : Int) by ring, Int.add_emod_right]
      rw [e4]
    · simp only [Fin.val_succ, Grp.cellBack]
      rw [← hp, hdiv, hmod]
      have e1 : (fun i : Fin d => backAt ext b.succ u i.succ) = backAt (fun i => ext i.succ) b fun i => u i.succ := by
        funext i
        unfold backAt
        by_cases h : i = b
        · subst h; rw [if_pos rfl, if_pos rfl]
        · rw [if_neg h, if_neg fun h' => h (Fin.succ_injective _ h')]
      have e2 : backAt ext b.succ u 0 = u 0 := by unfold backAt; rw [if_neg (Fin.succ_ne_zero b).symm]
      rw [e1, e2, ← ih (fun i => ext i.succ) b (fun i => u i.succ) hu']
      push_cast
      rw [Int.toNat_of_nonneg h0.1]

theorem inner_map (ext : List Nat) (nb : Nat) : inner ext nb = cart ((ext ++ [nb]).map upto) := by
  unfold inner; rw [List.map_append, List.map_singleton]

/-- **C155.** the permutation that `_translations_along_axis` looks up by positions: for every lattice with linearly independent basis
    vectors whose sites have distinct integer positions, along a periodic axis, the site with the same place in the cell before. -/
theorem C155_translation (S : Sites d) (nb : Nat) (hL : S.lattice.basisCoords = inner (List.ofFn S.ext) nb) (hb : IsUnit S.basis.det)
    (hpos : ∀ i, 0 < S.ext i) (hkeys : (S.lattice.basisCoords.map fun c => S.key (S.position c)).Nodup) (a : Fin d) (ha : S.pbc a = true) :
    ∃ P, S.transPerm a = .ok P ∧ (P.map fun j : Nat => (j : Int)) = Grp.transByOne (List.ofFn S.ext) nb a := by
  have hidx : ∀ (u : Fin d → ℤ) (q : Nat), InBox S.ext u → q < nb →
      S.lattice.basisCoords[(cellNo S.ext u).toNat * nb + q]? = some (coordsIn u q) := by
    intro u q hu hq
    have hm : coordsIn u q ∈ inner (List.ofFn S.ext) nb := (mem_inner _ _ _).2 ⟨u, q, hu, hq, rfl⟩
    rw [inner_map] at hm
    obtain ⟨g1, g2, g3⟩ := radix_spec _ _ hm
    rw [hL, inner_map]
    have : (radix (List.ofFn S.ext ++ [nb]) (coordsIn u q)).toNat = (cellNo S.ext u).toNat * nb + q := by
      unfold coordsIn
      rw [radix_append _ _ _ _ (by simp)]
      have h0 := (cellNo_bound S.ext u hu).1
      apply Int.natCast_inj.1
      unfold cellNo at h0 ⊢
      rw [Int.toNat_of_nonneg (by positivity)]
      push_cast
      rw [Int.toNat_of_nonneg h0]
    rw [← this]; exact g3
  have hnd : S.lattice.basisCoords.Nodup := by rw [hL]; exact inner_nodup _ _
  have hsite : ∀ c ∈ S.lattice.basisCoords, ∃ u q, InBox S.ext u ∧ q < nb ∧ c = coordsIn u q := fun c hc => (mem_inner _ _ _).1 (hL ▸ hc)
  have hkey : ∀ (u : Fin d → ℤ) (q : Nat), S.key (S.position (coordsIn u q) - S.basis a) = S.key (S.position (coordsIn (backAt S.ext a u) q)) := by
    intro u q
    have hp : ∀ v, S.position (coordsIn v q) = (fun i : Fin d => (v i : ℝ) + S.offsets q i) ᵥ* S.basis := by
      intro v
      unfold Sites.position
      rw [coordsIn_last]
      congr 1
      funext i
      rw [coordsIn_getD]
    have hrow : S.basis a = (Pi.single a (1 : ℝ)) ᵥ* S.basis := by rw [Matrix.single_one_vecMul]; rfl
    rw [hp, hp, hrow, ← Matrix.sub_vecMul, key_of_frac S hb hpos, key_of_frac S hb hpos]
    congr 1
    funext i
    rw [Pi.sub_apply]
    by_cases h : i = a
    · subst h
      rw [Pi.single_eq_same, ha]
      unfold backAt
      rw [if_pos rfl]
      have he : (S.ext i : ℝ) ≠ 0 := by have := hpos i; positivity
      have hdm := Int.emod_add_mul_ediv (u i - 1) (S.ext i : ℤ)
      have hdm' : (u i : ℝ) - 1 = (((u i - 1) % (S.ext i : ℤ) : ℤ) : ℝ) + (S.ext i : ℝ) * (((u i - 1) / (S.ext i : ℤ) : ℤ) : ℝ) := by
        have := congrArg (fun z : ℤ => (z : ℝ)) hdm.symm
        push_cast at this
        exact_mod_cast this
      have e : ((u i : ℝ) + S.offsets q i - 1) / (S.ext i : ℝ) =
          ((((u i - 1) % (S.ext i : ℤ) : ℤ) : ℝ) + S.offsets q i) / (S.ext i : ℝ) + (((u i - 1) / (S.ext i : ℤ) : ℤ) : ℝ) := by
        field_simp
        linarith
      rw [e, comparablePeriodic_shift]
    · rw [Pi.single_eq_of_ne h, sub_zero]
      unfold backAt
      rw [if_neg h]
  obtain ⟨P, hP, hf⟩ := collect_ok (fun c => S.idFromPosition (S.position c - S.basis a))
    (fun j c => ∀ u q, InBox S.ext u → q < nb → c = coordsIn u q → j = (cellNo S.ext (backAt S.ext a u)).toNat * nb + q)
    S.lattice.basisCoords (fun c => c) (by
      intro c hc
      obtain ⟨u, q, hu, hq, rfl⟩ := hsite c hc
      unfold Sites.idFromPosition
      rw [hkey]
      obtain ⟨k1, k2, _⟩ := lookup_spec (S.lattice.basisCoords.map fun c => S.key (S.position c)) (S.key (S.position (coordsIn (backAt S.ext a u) q)))
      have hi := hidx (backAt S.ext a u) q (backAt_inBox S.ext a u hu) hq
      obtain ⟨j, hj⟩ := k2 (List.mem_map.2 ⟨_, List.mem_of_getElem? hi, rfl⟩)
      refine ⟨j, hj, fun v r hv hr hvr => ?_⟩
      have hvr' : u = v ∧ q = r := by
        unfold coordsIn at hvr
        obtain ⟨h1, h2⟩ := List.append_inj' hvr rfl
        exact ⟨List.ofFn_injective h1, by simpa using h2⟩
      rw [← hvr'.1, ← hvr'.2]
      have hj' := k1 j hj
      have hi' : (S.lattice.basisCoords.map fun c => S.key (S.position c))[(cellNo S.ext (backAt S.ext a u)).toNat * nb + q]?
          = some (S.key (S.position (coordsIn (backAt S.ext a u) q))) := by rw [List.getElem?_map, hi]; rfl
      obtain ⟨l1, l2⟩ := List.getElem?_eq_some_iff.1 hj'
      obtain ⟨l3, l4⟩ := List.getElem?_eq_some_iff.1 hi'
      exact (hkeys.getElem_inj_iff).1 (l2.trans l4.symm))
  rw [List.map_id'] at hf
  refine ⟨P, hP, ?_⟩
  have hlen : S.lattice.basisCoords.length = (List.ofFn S.ext).prod * nb := by
    rw [hL, inner_map, cart_upto_length, List.prod_append, List.prod_singleton]
  apply List.ext_getElem
  · rw [List.length_map, hf.length_eq, hlen]
    unfold Grp.transByOne
    rw [List.length_map, List.length_range]
  · intro i h1 h2
    have hi : i < S.lattice.basisCoords.length := by rw [← hf.length_eq]; simpa using h1
    obtain ⟨u, q, hu, hq, hc⟩ := hsite _ (List.getElem_mem hi)
    have hval := (List.forall₂_iff_get.1 hf).2 i (by simpa using h1) hi u q hu hq hc
    have hix : i = (cellNo S.ext u).toNat * nb + q := by
      obtain ⟨l1, l2⟩ := List.getElem?_eq_some_iff.1 (hidx u q hu hq)
      exact (hnd.getElem_inj_iff).1 (hc.trans l2.symm)
    have hd1 : i / nb = (cellNo S.ext u).toNat := by
      rw [hix, Nat.mul_comm, Nat.mul_add_div (by omega), Nat.div_eq_of_lt hq, Nat.add_zero]
    have hd2 : i % nb = q := by rw [hix, Nat.mul_comm, Nat.mul_add_mod, Nat.mod_eq_of_lt hq]
    simp only [List.get_eq_getElem] at hval
    rw [List.getElem_map, hval]
    simp only [Grp.transByOne, List.getElem_map, List.getElem_range, hd1, hd2]
    push_cast
    rw [cellNo_back S.ext a u hu, Int.toNat_of_nonneg (cellNo_bound S.ext _ (backAt_inBox S.ext a u hu)).1]

/-! ### the space group of a grid -/

/-- an array of integers that permutes the `n` sites of a graph and maps edges onto edges (specification). -/
def IsAutomorphism (n : Nat) (edges : List (Nat × Nat)) (p : List Int) : Prop :=
  p.Perm ((List.range n).map fun i : Nat => (i : Int))
  ∧ ∀ (i j i' j' : Nat), p[i]? = some (i' : Int) → p[j]? = some (j' : Int) →
      (((i', j') ∈ edges ∨ (j', i') ∈ edges) ↔ ((i, j) ∈ edges ∨ (j, i) ∈ edges))

/-- the same with a function. -/
def FAut (n : Nat) (edges : List (Nat × Nat)) (p : List Int) : Prop :=
  ∃ f : Nat → Nat, p = Grp.ofFun n f ∧ (∀ i < n, f i < n) ∧ (∀ i < n, ∀ j < n, f i = f j → i = j)
    ∧ ∀ i < n, ∀ j < n, (((f i, f j) ∈ edges ∨ (f j, f i) ∈ edges) ↔ ((i, j) ∈ edges ∨ (j, i) ∈ edges))

theorem faut_comp (n : Nat) (edges : List (Nat × Nat)) (p q : List Int) (hp : FAut n edges p) (hq : FAut n edges q) :
    FAut n edges (Grp.compose p q) := by
  obtain ⟨f, rfl, h1, h2, h3⟩ := hp
  obtain ⟨g, rfl, k1, k2, k3⟩ := hq
  refine ⟨fun i => g (f i), Grp.compose_ofFun n f g h1, fun i hi => k1 _ (h1 i hi), fun i hi j hj h => h2 i hi j hj (k2 _ (h1 i hi) _ (h1 j hj) h), ?_⟩
  intro i hi j hj
  rw [k3 _ (h1 i hi) _ (h1 j hj), h3 i hi j hj]

theorem faut_id (n : Nat) (edges : List (Nat × Nat)) : FAut n edges (Grp.arange n) :=
  ⟨fun i => i, rfl, fun _ h => h, fun _ _ _ _ h => h, fun _ _ _ _ => Iff.rfl⟩

theorem ofFun_get (n : Nat) (f : Nat → Nat) (i : Nat) (x : Int) (h : (Grp.ofFun n f)[i]? = some x) : i < n ∧ x = (f i : Int) := by
  unfold Grp.ofFun at h
  rw [List.getElem?_map] at h
  obtain ⟨k, hk, hx⟩ := Option.map_eq_some_iff.1 h
  have hi : i < n := by
    have := (List.getElem?_eq_some_iff.1 hk).1
    simpa using this
  rw [List.getElem?_range hi] at hk
  cases hk
  exact ⟨hi, hx.symm⟩

theorem isAut_of_faut (n : Nat) (edges : List (Nat × Nat)) (p : List Int) (h : FAut n edges p) : IsAutomorphism n edges p := by
  obtain ⟨f, rfl, h1, h2, h3⟩ := h
  refine ⟨?_, fun i j i' j' hi hj => ?_⟩
  · have : Grp.ofFun n f = ((List.range n).map f).map fun i : Nat => (i : Int) := by
      unfold Grp.ofFun; rw [List.map_map]; rfl
    rw [this]
    refine List.Perm.map _ ?_
    have hnd : ((List.range n).map f).Nodup := by
      refine List.Nodup.map_on (fun i hi j hj h => h2 i (List.mem_range.1 hi) j (List.mem_range.1 hj) h) List.nodup_range
    refine (List.subperm_of_subset hnd fun x hx => ?_).perm_of_length_le (by simp)
    obtain ⟨i, hi, rfl⟩ := List.mem_map.1 hx
    exact List.mem_range.2 (h1 i (List.mem_range.1 hi))
  · obtain ⟨a1, a2⟩ := ofFun_get n f i i' hi
    obtain ⟨b1, b2⟩ := ofFun_get n f j j' hj
    rw [Int.natCast_inj.1 a2, Int.natCast_inj.1 b2]
    exact h3 i a1 j b1

theorem faut_implements (ext : Fin d → Nat) (pbc : Fin d → Bool) (cs : List (List Int)) (edges : List (Nat × Nat)) (P : List Nat) (e : PGElem ℝ d)
    (h : Implements ext pbc cs edges P e) : FAut cs.length edges (P.map fun j : Nat => (j : Int)) := by
  obtain ⟨h1, _, h3⟩ := h
  have hlen : P.length = cs.length := by simpa using h1.length_eq
  have hnd : P.Nodup := h1.symm.nodup List.nodup_range
  have hget : ∀ i < cs.length, P[i]? = some (P.getD i 0) := by
    intro i hi
    rw [List.getD_eq_getElem?_getD, List.getElem?_eq_getElem (by omega)]; rfl
  refine ⟨fun i => P.getD i 0, ?_, ?_, ?_, ?_⟩
  · apply List.ext_getElem?
    intro i
    unfold Grp.ofFun
    rw [List.getElem?_map, List.getElem?_map]
    by_cases hi : i < cs.length
    · rw [hget i hi, List.getElem?_range hi]; rfl
    · rw [List.getElem?_eq_none (by omega), List.getElem?_eq_none (by simpa using hi)]; rfl
  · intro i hi
    have := h1.subset (List.mem_of_getElem? (hget i hi))
    exact List.mem_range.1 this
  · intro i hi j hj hij
    obtain ⟨a1, a2⟩ := List.getElem?_eq_some_iff.1 (hget i hi)
    obtain ⟨b1, b2⟩ := List.getElem?_eq_some_iff.1 (hget j hj)
    exact (hnd.getElem_inj_iff).1 (a2.trans (hij.trans b2.symm))
  · intro i hi j hj
    exact h3 i j _ _ (hget i hi) (hget j hj)

theorem adj_step (ext : Fin d → Nat) (pbc : Fin d → Bool) (a : Fin d) (ε : ℤ) (u v : Fin d → ℤ) :
    Adj ext pbc (step a ε u) (step a ε v) ↔ Adj ext pbc u v := by
  have hinv : ∀ (δ : ℤ) (w : Fin d → ℤ), step a (-δ) (step a δ w) = w := by
    intro δ w
    funext i
    unfold step
    split_ifs <;> ring
  have hcomm : ∀ (b : Fin d) (δ η : ℤ) (w : Fin d → ℤ), step a δ (step b η w) = step b η (step a δ w) := by
    intro b δ η w
    funext i
    unfold step
    split_ifs <;> ring
  have key : ∀ (δ : ℤ) (u v : Fin d → ℤ), Adj ext pbc u v → Adj ext pbc (step a δ u) (step a δ v) := by
    rintro δ u v ⟨h1, b, η, h2, h3⟩
    refine ⟨fun h => h1 ?_, b, η, h2, ?_⟩
    · have := step_same a (-δ) h
      rwa [hinv, hinv] at this
    · rw [← hcomm]
      exact step_same a δ h3
  refine ⟨fun h => ?_, key ε u v⟩
  have := key (-ε) _ _ h
  rwa [hinv, hinv] at this

theorem backAt_same (ext : Fin d → Nat) (pbc : Fin d → Bool) (a : Fin d) (ha : pbc a = true) (u : Fin d → ℤ) :
    Same ext pbc (backAt ext a u) (step a (-1) u) := by
  intro i
  unfold backAt step
  by_cases h : i = a
  · subst h
    rw [if_pos rfl, if_pos rfl, if_pos ha]
    exact Int.dvd_of_emod_eq_zero (Int.emod_eq_emod_iff_emod_sub_eq_zero.1 (by rw [Int.emod_emod_of_dvd _ (dvd_refl _)]; rfl))
  · rw [if_neg h, if_neg h]
    split_ifs <;> simp

theorem faut_trans (L : Lattice) (ext : Fin d → Nat) (pbc : Fin d → Bool) (hL : L.basisCoords = inner (List.ofFn ext) 1)
    (hedge : ∀ (a b : Nat) (u v : List Int), L.basisCoords[a]? = some u → L.basisCoords[b]? = some v →
        (((a, b) ∈ L.edges ∨ (b, a) ∈ L.edges) ↔ u ≠ v ∧ (WrapStep (List.ofFn ext) (List.ofFn pbc) u v ∨ WrapStep (List.ofFn ext) (List.ofFn pbc) v u)))
    (a : Fin d) (ha : pbc a = true) : FAut L.basisCoords.length L.edges (Grp.transByOne (List.ofFn ext) 1 a) := by
  have hlen : L.basisCoords.length = (List.ofFn ext).prod * 1 := by
    rw [hL, inner_map, cart_upto_length, List.prod_append, List.prod_singleton]
  have hidx : ∀ (u : Fin d → ℤ), InBox ext u → L.basisCoords[(cellNo ext u).toNat]? = some (coordsOf u) := by
    intro u hu
    have hm : coordsOf u ∈ inner (List.ofFn ext) 1 := (mem_sites _ _).2 ⟨u, hu, rfl⟩
    rw [inner_map] at hm
    obtain ⟨g1, g2, g3⟩ := radix_spec _ _ hm
    rw [hL, inner_map]
    have : radix (List.ofFn ext ++ [1]) (coordsOf u) = cellNo ext u := by
      unfold coordsOf
      rw [radix_append _ _ _ _ (by simp)]
      simp [cellNo]
    rw [← this]; exact g3
  have hnd : L.basisCoords.Nodup := by rw [hL]; exact inner_nodup _ _
  have hat : ∀ i < L.basisCoords.length, ∃ u, InBox ext u ∧ L.basisCoords[i]? = some (coordsOf u) ∧ i = (cellNo ext u).toNat := by
    intro i hi
    have hm : L.basisCoords[i] ∈ inner (List.ofFn ext) 1 := by rw [← hL]; exact List.getElem_mem hi
    obtain ⟨u, hu, hc⟩ := (mem_sites ext _).1 hm
    refine ⟨u, hu, by rw [List.getElem?_eq_getElem hi, hc], ?_⟩
    obtain ⟨l1, l2⟩ := List.getElem?_eq_some_iff.1 (hidx u hu)
    exact (hnd.getElem_inj_iff).1 (hc.trans l2.symm)
  have hf : ∀ (u : Fin d → ℤ), InBox ext u → Grp.cellBack (List.ofFn ext) a (cellNo ext u).toNat = (cellNo ext (backAt ext a u)).toNat := by
    intro u hu
    have := cellNo_back ext a u hu
    omega
  have hne : ∀ w z : Fin d → ℤ, coordsOf w ≠ coordsOf z ↔ w ≠ z := fun w z => ⟨fun h h' => h (by rw [h']), fun h h' => h (coordsOf_inj h')⟩
  refine ⟨fun i => Grp.cellBack (List.ofFn ext) a i, ?_, ?_, ?_, ?_⟩
  · unfold Grp.transByOne Grp.ofFun
    rw [hlen]
    refine List.map_congr_left fun i _ => ?_
    simp
  · intro i hi
    obtain ⟨u, hu, _, rfl⟩ := hat i hi
    simp only
    rw [hf u hu]
    exact (List.getElem?_eq_some_iff.1 (hidx _ (backAt_inBox ext a u hu))).1
  · intro i hi j hj h
    obtain ⟨u, hu, _, rfl⟩ := hat i hi
    obtain ⟨v, hv, _, rfl⟩ := hat j hj
    simp only at h
    rw [hf u hu, hf v hv] at h
    have h1 := hidx _ (backAt_inBox ext a u hu)
    rw [h, hidx _ (backAt_inBox ext a v hv)] at h1
    have h2 := coordsOf_inj (Option.some.inj h1)
    have h3 : Same ext pbc (step a (-1) u) (step a (-1) v) :=
      same_trans (same_symm (backAt_same ext pbc a ha u)) (h2 ▸ backAt_same ext pbc a ha v)
    have h4 := step_same a 1 h3
    have hinv : ∀ w : Fin d → ℤ, step a 1 (step a (-1) w) = w := by
      intro w; funext i; unfold step; split_ifs <;> ring
    rw [hinv, hinv] at h4
    rw [same_inBox hu hv h4]
  · intro i hi j hj
    obtain ⟨u, hu, hu', rfl⟩ := hat i hi
    obtain ⟨v, hv, hv', rfl⟩ := hat j hj
    simp only
    rw [hf u hu, hf v hv, hedge _ _ _ _ (hidx _ (backAt_inBox ext a u hu)) (hidx _ (backAt_inBox ext a v hv)), hedge _ _ _ _ hu' hv', hne, hne,
      adj_wrap ext pbc _ _ (backAt_inBox ext a u hu) (backAt_inBox ext a v hv), adj_wrap ext pbc u v hu hv,
      adj_congr (backAt_same ext pbc a ha u) (backAt_same ext pbc a ha v)]
    exact adj_step ext pbc a (-1) u v

theorem faut_matmul (n : Nat) (edges : List (Nat × Nat)) (A B : List (List Int)) (hA : ∀ p ∈ A, FAut n edges p) (hB : ∀ p ∈ B, FAut n edges p) :
    ∀ p ∈ Grp.matmul A B, FAut n edges p := by
  intro p hp
  unfold Grp.matmul at hp
  obtain ⟨x, hx, hp⟩ := List.mem_flatMap.1 hp
  obtain ⟨y, hy, rfl⟩ := List.mem_map.1 hp
  exact faut_comp n edges x y (hA x hx) (hB y hy)

theorem faut_transList (n : Nat) (edges : List (Nat × Nat)) (one : List Int) (h : FAut n edges one) :
    ∀ k, ∀ p ∈ Grp.transList one n k, FAut n edges p
  | 0 => by simp [Grp.transList]
  | 1 => by
    intro p hp
    simp only [Grp.transList, List.mem_singleton] at hp
    rw [hp]; exact faut_id n edges
  | k + 2 => by
    intro p hp
    have ih := faut_transList n edges one h (k + 1)
    simp only [Grp.transList, List.mem_append, List.mem_singleton] at hp
    rcases hp with hp | rfl
    · exact ih p hp
    · have hl : ∀ m, (Grp.transList one n (m + 1)).length = m + 1 := by
        intro m
        induction m with
        | zero => rfl
        | succ m ihm => simp only [Grp.transList, List.length_append, ihm, List.length_singleton]
      have hk : k < (Grp.transList one n (k + 1)).length := by rw [hl]; omega
      rw [List.getD_eq_getElem?_getD, List.getElem?_eq_getElem hk]
      exact faut_comp n edges _ _ (ih _ (List.getElem_mem hk)) h

/-- **C155.** all elements of the translation group and of the space group of a grid with its default point group are automorphisms
    of its graph, for any combination of boundary conditions. -/
theorem C155_space_group (ext : Fin d → Nat) (pbc : Fin d → Bool) (hpos : ∀ i, 0 < ext i) (hsmall : ∀ i, ext i < 3326400)
    (hext : ∃ i, pbc i = true ∨ 2 ≤ ext i) :
    ∃ S G Ps T sg, gridSites ext pbc = .ok S ∧ gridPointGroup ext pbc = .ok G ∧ S.pointGroup G = .ok Ps
      ∧ Grp.translationGroup (List.ofFn ext) (List.ofFn pbc) 1 = .ok T
      ∧ (∀ p ∈ T, IsAutomorphism S.lattice.nNodes S.lattice.edges p)
      ∧ Grp.spaceGroup (List.ofFn ext) (List.ofFn pbc) 1 (Ps.map fun P => P.map fun j : Nat => (j : Int)) = .ok sg
      ∧ (∀ p ∈ sg, IsAutomorphism S.lattice.nNodes S.lattice.edges p)
      ∧ sg.length = T.length * Ps.length := by
  obtain ⟨S, G, Ps, R, Rs, h1, h2, h3, h4, _⟩ := C155_sites ext pbc hpos hsmall hext
  obtain ⟨L, l1, l2, l3⟩ := grid_mk ext pbc hpos hext
  have hS : S = ⟨L, ext, pbc, 1, fun _ => 0⟩ := by
    unfold gridSites at h1
    rw [l1] at h1
    exact (Except.ok.inj h1).symm
  subst hS
  have hlen : L.basisCoords.length = (List.ofFn ext).prod * 1 := by
    rw [l2, inner_map, cart_upto_length, List.prod_append, List.prod_singleton]
  have hax : ∀ k, ∀ p ∈ Grp.axisTranslations (List.ofFn ext) (List.ofFn pbc) 1 k, FAut L.basisCoords.length L.edges p := by
    intro k p hp
    unfold Grp.axisTranslations at hp
    split_ifs at hp with hk
    · have hkd : k < d := by
        by_contra hc
        rw [List.getD_eq_getElem?_getD, List.getElem?_eq_none (by simpa using hc)] at hk
        simp at hk
      have hk' : pbc ⟨k, hkd⟩ = true := by
        rw [List.getD_eq_getElem?_getD, List.getElem?_ofFn] at hk
        simpa [hkd] using hk
      rw [← hlen] at hp
      exact faut_transList _ _ _ (faut_trans L ext pbc l2 l3 ⟨k, hkd⟩ hk') _ p hp
    · rw [List.mem_singleton] at hp
      rw [hp, ← hlen]
      exact faut_id _ _
  have hfold : ∀ (ks : List Nat) (g : List (List Int)), (∀ p ∈ g, FAut L.basisCoords.length L.edges p) →
      ∀ p ∈ ks.foldl (fun g a => Grp.matmul g (Grp.axisTranslations (List.ofFn ext) (List.ofFn pbc) 1 a)) g, FAut L.basisCoords.length L.edges p := by
    intro ks
    induction ks with
    | nil => intro g hg; exact hg
    | cons k ks ih => intro g hg; exact ih _ (faut_matmul _ _ _ _ hg (hax k))
  have hT : ∃ T, Grp.translationGroup (List.ofFn ext) (List.ofFn pbc) 1 = .ok T ∧ ∀ p ∈ T, FAut L.basisCoords.length L.edges p := by
    cases d with
    | zero => obtain ⟨i, _⟩ := hext; exact i.elim0
    | succ d =>
      unfold Grp.translationGroup
      rw [List.ofFn_succ (f := ext)]
      refine ⟨_, rfl, ?_⟩
      rw [← List.ofFn_succ (f := ext)]
      exact hfold _ _ (hax 0)
  obtain ⟨T, t1, t2⟩ := hT
  have hP : ∀ p ∈ (Ps.map fun P => P.map fun j : Nat => (j : Int)), FAut L.basisCoords.length L.edges p := by
    intro p hp
    obtain ⟨P, hPm, rfl⟩ := List.mem_map.1 hp
    obtain ⟨k, hk, rfl⟩ := List.getElem_of_mem hPm
    exact faut_implements ext pbc _ _ _ _ ((List.forall₂_iff_get.1 h4).2 k hk (by rw [← h4.length_eq]; exact hk))
  refine ⟨_, G, Ps, T, Grp.matmul T (Ps.map fun P => P.map fun j : Nat => (j : Int)), h1, h2, h3, t1, fun p hp => isAut_of_faut _ _ _ (t2 p hp), ?_, ?_, ?_⟩
  · unfold Grp.spaceGroup; rw [t1]
  · intro p hp
    exact isAut_of_faut _ _ _ (faut_matmul _ _ _ _ t2 hP p hp)
  · rw [Grp.matmul_length, List.length_map]

/-! ## Cases -/

/-- hypotheses of `C155_translation` for a chain of two cells of length two with two sites in each. -/
example : let S : Sites 1 := ⟨⟨inner [2] 2, []⟩, fun _ => 2, fun _ => true, of fun _ _ => 2, fun q _ => (q : ℝ) / 2⟩
    S.lattice.basisCoords = inner (List.ofFn S.ext) 2 ∧ IsUnit S.basis.det ∧ (∀ i, 0 < S.ext i) ∧ S.pbc 0 = true
    ∧ (S.lattice.basisCoords.map fun c => S.key (S.position c)).Nodup := by
  intro S
  have hdet : IsUnit S.basis.det := by
    have : S.basis.det = 2 := by simp [S]
    rw [this]; norm_num
  have hp : ∀ i, 0 < S.ext i := fun _ => by simp [S]
  refine ⟨rfl, hdet, hp, rfl, ?_⟩
  have hi : S.lattice.basisCoords = [[0, 0], [0, 1], [1, 0], [1, 1]] := by decide
  have key : ∀ c : List Int, S.key (S.position c) = [comparablePeriodic true (((c.getD 0 0 : ℝ) + ((c.getLast?.getD 0).toNat : ℝ) / 2) / 2)] := by
    intro c
    unfold Sites.position
    rw [key_of_frac S hdet hp]
    simp [S]
  have val : ∀ (x : ℝ) (m : Int), x * 3326400 = m → 0 ≤ m → m < 3326400 → comparablePeriodic true x = m := by
    intro x m h h0 h1
    unfold comparablePeriodic comparable
    rw [if_pos rfl, Verif.Bins.rint_of_lt _ m (by rw [h, add_sub_cancel_left, abs_of_nonneg (by norm_num)]; norm_num)]
    exact Int.emod_eq_of_lt h0 h1
  rw [hi]
  simp only [List.map_cons, List.map_nil, key]
  rw [val _ 0 (by simp) (by decide) (by decide), val _ 831600 (by simp; norm_num) (by decide) (by decide),
    val _ 1663200 (by simp; norm_num) (by decide) (by decide), val _ 2494800 (by simp; norm_num) (by decide) (by decide)]
  decide

/-- hypotheses of `C155_space_group` for a ladder: one periodic and one open axis. -/
example : (∀ i : Fin 2, 0 < (![4, 2] : Fin 2 → Nat) i) ∧ (∀ i : Fin 2, (![4, 2] : Fin 2 → Nat) i < 3326400)
    ∧ ∃ i : Fin 2, (![true, false] : Fin 2 → Bool) i = true ∨ 2 ≤ (![4, 2] : Fin 2 → Nat) i := by decide

end Verif.GridPG
