import Verif.Lemmas.GridGroup
import Verif.Props.Lattice
import Mathlib.Data.Fin.Tuple.Basic

/-! The sites of a grid as integer vectors, and the action of signed permutations on them. -/

namespace Verif.GridPG
open Verif.Hilbert (Err)
open Verif.PGrp Verif.Lat Matrix

variable {d : Nat}

/-- the coordinates of a site. -/
def InBox (ext : Fin d → Nat) (u : Fin d → ℤ) : Prop := ∀ i, 0 ≤ u i ∧ u i < (ext i : ℤ)

/-- equal up to box vectors along the periodic axes. -/
def Same (ext : Fin d → Nat) (pbc : Fin d → Bool) (u v : Fin d → ℤ) : Prop :=
  ∀ i, if pbc i = true then (ext i : ℤ) ∣ u i - v i else u i = v i

theorem same_refl (ext : Fin d → Nat) (pbc : Fin d → Bool) (u : Fin d → ℤ) : Same ext pbc u u := by
  intro i; split_ifs <;> simp

theorem same_symm {ext : Fin d → Nat} {pbc : Fin d → Bool} {u v : Fin d → ℤ} (h : Same ext pbc u v) : Same ext pbc v u := by
  intro i
  have := h i
  split_ifs at this ⊢
  · rw [← neg_sub]; exact (dvd_neg).2 this
  · exact this.symm

theorem same_trans {ext : Fin d → Nat} {pbc : Fin d → Bool} {u v w : Fin d → ℤ} (h : Same ext pbc u v) (h' : Same ext pbc v w) :
    Same ext pbc u w := by
  intro i
  have h1 := h i
  have h2 := h' i
  split_ifs at h1 h2 ⊢
  · have := dvd_add h1 h2
    rwa [sub_add_sub_cancel] at this
  · exact h1.trans h2

theorem emod_unique {e a b : ℤ} (ha : 0 ≤ a ∧ a < e) (hb : 0 ≤ b ∧ b < e) (h : e ∣ a - b) : a = b := by
  have h1 : a % e = b % e := Int.emod_eq_emod_iff_emod_sub_eq_zero.2 (Int.emod_eq_zero_of_dvd h)
  rwa [Int.emod_eq_of_lt ha.1 ha.2, Int.emod_eq_of_lt hb.1 hb.2] at h1

theorem same_inBox {ext : Fin d → Nat} {pbc : Fin d → Bool} {u v : Fin d → ℤ} (hu : InBox ext u) (hv : InBox ext v)
    (h : Same ext pbc u v) : u = v := by
  funext i
  have := h i
  split_ifs at this
  · exact emod_unique (hu i) (hv i) this
  · exact this

/-- one step along an axis. -/
def step (a : Fin d) (ε : ℤ) (u : Fin d → ℤ) : Fin d → ℤ := fun i => if i = a then u i + ε else u i

/-- neighbours. -/
def Adj (ext : Fin d → Nat) (pbc : Fin d → Bool) (u v : Fin d → ℤ) : Prop :=
  ¬Same ext pbc u v ∧ ∃ a, ∃ ε : ℤ, (ε = 1 ∨ ε = -1) ∧ Same ext pbc v (step a ε u)

theorem step_same {ext : Fin d → Nat} {pbc : Fin d → Bool} (a : Fin d) (ε : ℤ) {u v : Fin d → ℤ} (h : Same ext pbc u v) :
    Same ext pbc (step a ε u) (step a ε v) := by
  intro i
  have := h i
  unfold step
  by_cases hi : i = a
  · rw [if_pos hi, if_pos hi]
    split_ifs at this ⊢
    · rwa [add_sub_add_right_eq_sub]
    · rw [this]
  · rw [if_neg hi, if_neg hi]; exact this

theorem adj_congr {ext : Fin d → Nat} {pbc : Fin d → Bool} {u v u' v' : Fin d → ℤ} (hu : Same ext pbc u u') (hv : Same ext pbc v v') :
    Adj ext pbc u v ↔ Adj ext pbc u' v' := by
  have key : ∀ {u v u' v' : Fin d → ℤ}, Same ext pbc u u' → Same ext pbc v v' → Adj ext pbc u v → Adj ext pbc u' v' := by
    rintro u v u' v' hu hv ⟨h1, a, ε, h2, h3⟩
    exact ⟨fun h => h1 (same_trans hu (same_trans h (same_symm hv))), a, ε, h2,
      same_trans (same_symm hv) (same_trans h3 (step_same a ε hu))⟩
  exact ⟨key hu hv, key (same_symm hu) (same_symm hv)⟩

/-! ### signed permutations -/

/-- the integer version of a signed permutation around the centre of the box (open axes) or the origin (periodic axes). -/
def move (ext : Fin d → Nat) (pbc : Fin d → Bool) (σ : Equiv.Perm (Fin d)) (s : Fin d → ℤ) (u : Fin d → ℤ) : Fin d → ℤ :=
  fun i => if s (σ i) = 1 then u (σ i) else if pbc i = true then -u (σ i) else (ext i : ℤ) - 1 - u (σ i)

theorem move_same {ext : Fin d → Nat} {pbc : Fin d → Bool} {σ : Equiv.Perm (Fin d)} (hσ : Compatible ext pbc σ) (s : Fin d → ℤ)
    {u v : Fin d → ℤ} (h : Same ext pbc u v) : Same ext pbc (move ext pbc σ s u) (move ext pbc σ s v) := by
  intro i
  have := h (σ i)
  rw [(hσ i).1, (hσ i).2] at this
  unfold move
  by_cases hs : s (σ i) = 1
  · rw [if_pos hs, if_pos hs]; exact this
  · rw [if_neg hs, if_neg hs]
    by_cases hp : pbc i = true
    · rw [if_pos hp] at this
      rw [if_pos hp, if_pos hp, if_pos hp]
      have h2 : -u (σ i) - -v (σ i) = -(u (σ i) - v (σ i)) := by ring
      rw [h2]
      exact (dvd_neg).2 this
    · rw [if_neg hp] at this
      rw [if_neg hp, if_neg hp, if_neg hp, this]

theorem move_step {ext : Fin d → Nat} {pbc : Fin d → Bool} {σ : Equiv.Perm (Fin d)} (s : Fin d → ℤ) (hs : ∀ i, s i = 1 ∨ s i = -1)
    (a : Fin d) (ε : ℤ) (u : Fin d → ℤ) :
    move ext pbc σ s (step a ε u) = step (σ.symm a) (s a * ε) (move ext pbc σ s u) := by
  funext i
  unfold move step
  by_cases h : σ i = a
  · have h' : i = σ.symm a := by rw [← h]; simp
    rw [if_pos h', if_pos h]
    simp only [h]
    rcases hs a with h1 | h1
    · rw [if_pos h1, if_pos h1, h1, one_mul]
    · have h2 : ¬s a = 1 := by rw [h1]; decide
      rw [if_neg h2, if_neg h2, h1]
      split_ifs <;> ring
  · have h' : i ≠ σ.symm a := fun h' => h (by rw [h']; simp)
    rw [if_neg h', if_neg h]

/-- the inverse. -/
theorem move_move {ext : Fin d → Nat} {pbc : Fin d → Bool} {σ : Equiv.Perm (Fin d)} (hσ : Compatible ext pbc σ) (s u : Fin d → ℤ) :
    move ext pbc σ.symm (fun j => s (σ j)) (move ext pbc σ s u) = u := by
  funext i
  unfold move
  have h1 : ext (σ.symm i) = ext i := by have := (hσ (σ.symm i)).1; simpa using this.symm
  have h2 : pbc (σ.symm i) = pbc i := by have := (hσ (σ.symm i)).2; simpa using this.symm
  simp only [Equiv.apply_symm_apply, h1, h2]
  split_ifs <;> ring

theorem compatible_symm {ext : Fin d → Nat} {pbc : Fin d → Bool} {σ : Equiv.Perm (Fin d)} (hσ : Compatible ext pbc σ) :
    Compatible ext pbc σ.symm := by
  intro i
  have := hσ (σ.symm i)
  simp only [Equiv.apply_symm_apply] at this
  exact ⟨this.1.symm, this.2.symm⟩

theorem move_adj {ext : Fin d → Nat} {pbc : Fin d → Bool} {σ : Equiv.Perm (Fin d)} (hσ : Compatible ext pbc σ) (s : Fin d → ℤ)
    (hs : ∀ i, s i = 1 ∨ s i = -1) (u v : Fin d → ℤ) :
    Adj ext pbc (move ext pbc σ s u) (move ext pbc σ s v) ↔ Adj ext pbc u v := by
  have key : ∀ {σ : Equiv.Perm (Fin d)} (_ : Compatible ext pbc σ) (s : Fin d → ℤ) (_ : ∀ i, s i = 1 ∨ s i = -1) (u v : Fin d → ℤ),
      Adj ext pbc u v → Adj ext pbc (move ext pbc σ s u) (move ext pbc σ s v) := by
    rintro σ hσ s hs u v ⟨h1, a, ε, h2, h3⟩
    refine ⟨fun h => h1 ?_, σ.symm a, s a * ε, ?_, ?_⟩
    · have := move_same (compatible_symm hσ) (fun j => s (σ j)) h
      rwa [move_move hσ, move_move hσ] at this
    · rcases hs a with h | h <;> rcases h2 with h' | h' <;> simp [h, h']
    · rw [← move_step s hs]
      exact move_same hσ s h3
  refine ⟨fun h => ?_, key hσ s hs u v⟩
  have := key (compatible_symm hσ) (fun j => s (σ j)) (fun i => hs _) _ _ h
  rwa [move_move hσ, move_move hσ] at this

/-- the representative in the box. -/
def reduce (ext : Fin d → Nat) (pbc : Fin d → Bool) (u : Fin d → ℤ) : Fin d → ℤ := fun i => if pbc i = true then u i % (ext i : ℤ) else u i

theorem reduce_same (ext : Fin d → Nat) (pbc : Fin d → Bool) (u : Fin d → ℤ) : Same ext pbc (reduce ext pbc u) u := by
  intro i
  unfold reduce
  split_ifs with h
  · exact Int.dvd_of_emod_eq_zero (Int.emod_eq_emod_iff_emod_sub_eq_zero.1 (Int.emod_emod_of_dvd (u i) (dvd_refl (ext i : ℤ))))
  · rfl

theorem reduce_inBox (ext : Fin d → Nat) (pbc : Fin d → Bool) (hpos : ∀ i, 0 < ext i) {σ : Equiv.Perm (Fin d)} (hσ : Compatible ext pbc σ)
    (s u : Fin d → ℤ) (hu : InBox ext u) : InBox ext (reduce ext pbc (move ext pbc σ s u)) := by
  intro i
  have hp := hpos i
  have h1 := hu (σ i)
  rw [(hσ i).1] at h1
  unfold reduce
  by_cases h : pbc i = true
  · rw [if_pos h]
    exact ⟨Int.emod_nonneg _ (by omega), Int.emod_lt_of_pos _ (by omega)⟩
  · rw [if_neg h]
    unfold move
    rw [if_neg h]
    split_ifs <;> omega

/-! ### the list of sites -/

/-- the coordinates stored for a site. -/
def coordsOf (u : Fin d → ℤ) : List Int := List.ofFn u ++ [0]

theorem coordsOf_inj {u v : Fin d → ℤ} (h : coordsOf u = coordsOf v) : u = v :=
  List.ofFn_injective (List.append_cancel_right h)

theorem mem_sites (ext : Fin d → Nat) (c : List Int) : c ∈ inner (List.ofFn ext) 1 ↔ ∃ u, InBox ext u ∧ c = coordsOf u := by
  induction d generalizing c with
  | zero =>
    unfold inner
    simp only [List.ofFn_zero, List.map_nil, List.nil_append]
    rw [mem_cart_cons]
    constructor
    · rintro ⟨x, xs, rfl, hx, hxs⟩
      rw [mem_cart_nil] at hxs
      rw [mem_upto] at hx
      subst hxs
      push_cast at hx
      refine ⟨Fin.elim0, fun i => i.elim0, ?_⟩
      simp [coordsOf]; omega
    · rintro ⟨u, _, rfl⟩
      exact ⟨0, [], rfl, (mem_upto 1 0).2 (by norm_num), (mem_cart_nil _).2 rfl⟩
  | succ d ih =>
    unfold inner at ih ⊢
    rw [List.ofFn_succ, List.map_cons, List.cons_append, mem_cart_cons]
    constructor
    · rintro ⟨x, xs, rfl, hx, hxs⟩
      obtain ⟨u, hu, rfl⟩ := (ih (fun i => ext i.succ) xs).1 hxs
      rw [mem_upto] at hx
      refine ⟨Fin.cons x u, fun i => ?_, ?_⟩
      · refine Fin.cases ?_ (fun j => ?_) i
        · exact hx
        · exact hu j
      · simp [coordsOf, List.ofFn_succ]
    · rintro ⟨u, hu, rfl⟩
      refine ⟨u 0, coordsOf fun i => u i.succ, by simp [coordsOf, List.ofFn_succ], (mem_upto _ _).2 (hu 0), ?_⟩
      exact (ih (fun i => ext i.succ) _).2 ⟨_, fun i => hu i.succ, rfl⟩

theorem wrapStep_iff (ext : Fin d → Nat) (pbc : Fin d → Bool) (u v : Fin d → ℤ) :
    WrapStep (List.ofFn ext) (List.ofFn pbc) (coordsOf u) (coordsOf v) ↔
      ∃ a, (∀ i, i ≠ a → u i = v i) ∧ (v a = u a + 1 ∨ (pbc a = true ∧ u a = (ext a : ℤ) - 1 ∧ v a = 0)) := by
  induction d with
  | zero =>
    simp only [List.ofFn_zero, WrapStep, false_iff]
    rintro ⟨a, _⟩
    exact a.elim0
  | succ d ih =>
    have e : ∀ w : Fin (d + 1) → ℤ, coordsOf w = w 0 :: coordsOf fun i => w i.succ := fun w => by simp [coordsOf, List.ofFn_succ]
    rw [List.ofFn_succ, List.ofFn_succ, e u, e v]
    unfold WrapStep
    rw [ih (fun i => ext i.succ) (fun i => pbc i.succ)]
    constructor
    · rintro (⟨h1, h2⟩ | ⟨h1, a, h2, h3⟩)
      · refine ⟨0, fun i hi => ?_, h1⟩
        obtain ⟨j, rfl⟩ := Fin.exists_succ_eq.2 hi
        exact congrFun (coordsOf_inj h2) j
      · refine ⟨a.succ, fun i hi => ?_, h3⟩
        rcases Fin.eq_zero_or_eq_succ i with rfl | ⟨j, rfl⟩
        · exact h1
        · exact h2 j fun h => hi (by rw [h])
    · rintro ⟨a, h1, h2⟩
      rcases Fin.eq_zero_or_eq_succ a with rfl | ⟨b, rfl⟩
      · refine Or.inl ⟨h2, ?_⟩
        congr 1
        funext i
        exact h1 _ (Fin.succ_ne_zero i)
      · refine Or.inr ⟨h1 0 (Fin.succ_ne_zero b).symm, b, fun i hi => h1 _ fun h => hi (Fin.succ_injective _ h), h2⟩

theorem adj_wrap (ext : Fin d → Nat) (pbc : Fin d → Bool) (u v : Fin d → ℤ) (hu : InBox ext u) (hv : InBox ext v) :
    (u ≠ v ∧ (WrapStep (List.ofFn ext) (List.ofFn pbc) (coordsOf u) (coordsOf v) ∨
      WrapStep (List.ofFn ext) (List.ofFn pbc) (coordsOf v) (coordsOf u))) ↔ Adj ext pbc u v := by
  rw [wrapStep_iff, wrapStep_iff]
  have hns : u ≠ v ↔ ¬Same ext pbc u v := by
    constructor
    · intro h h'; exact h (same_inBox hu hv h')
    · rintro h rfl; exact h (same_refl _ _ _)
  unfold Adj
  rw [hns]
  refine and_congr_right fun hne => ?_
  rw [← hns] at hne
  constructor
  · rintro (⟨a, h1, h2⟩ | ⟨a, h1, h2⟩)
    · refine ⟨a, 1, .inl rfl, fun i => ?_⟩
      unfold step
      by_cases hi : i = a
      · subst hi
        rw [if_pos rfl]
        rcases h2 with h2 | ⟨h2, h3, h4⟩
        · rw [h2]; split_ifs <;> simp
        · rw [if_pos h2, h3, h4]
          exact ⟨-1, by ring⟩
      · rw [if_neg hi, h1 i hi]; split_ifs <;> simp
    · refine ⟨a, -1, .inr rfl, fun i => ?_⟩
      unfold step
      by_cases hi : i = a
      · subst hi
        rw [if_pos rfl]
        rcases h2 with h2 | ⟨h2, h3, h4⟩
        · rw [h2]; split_ifs <;> simp
        · rw [if_pos h2, h3, h4]
          exact ⟨1, by ring⟩
      · rw [if_neg hi, h1 i hi]; split_ifs <;> simp
  · rintro ⟨a, ε, hε, h⟩
    have hother : ∀ i, i ≠ a → u i = v i := by
      intro i hi
      have := h i
      unfold step at this
      rw [if_neg hi] at this
      split_ifs at this
      · exact (emod_unique (hv i) (hu i) this).symm
      · exact this.symm
    have ha := h a
    unfold step at ha
    rw [if_pos rfl] at ha
    have hne' : u a ≠ v a := by
      intro h'
      apply hne
      funext i
      by_cases hi : i = a
      · rw [hi]; exact h'
      · exact hother i hi
    have h1 := hu a
    have h2 := hv a
    by_cases hp : pbc a = true
    · rw [if_pos hp] at ha
      obtain ⟨k, hk⟩ := ha
      have hk1 : k < 2 := by
        by_contra hc
        have : (ext a : ℤ) * 2 ≤ (ext a : ℤ) * k := Int.mul_le_mul_of_nonneg_left (by omega) (by omega)
        omega
      have hk2 : -2 < k := by
        by_contra hc
        have : (ext a : ℤ) * k ≤ (ext a : ℤ) * (-2) := Int.mul_le_mul_of_nonneg_left (by omega) (by omega)
        omega
      have hk3 : k = -1 ∨ k = 0 ∨ k = 1 := by omega
      rcases hε with rfl | rfl <;> rcases hk3 with rfl | rfl | rfl
      · exact .inl ⟨a, hother, .inr ⟨hp, by omega, by omega⟩⟩
      · exact .inl ⟨a, hother, .inl (by omega)⟩
      · omega
      · omega
      · exact .inr ⟨a, fun i hi => (hother i hi).symm, .inl (by omega)⟩
      · exact .inr ⟨a, fun i hi => (hother i hi).symm, .inr ⟨hp, by omega, by omega⟩⟩
    · rw [if_neg hp] at ha
      rcases hε with rfl | rfl
      · exact .inl ⟨a, hother, .inl ha⟩
      · exact .inr ⟨a, fun i hi => (hother i hi).symm, .inl (by omega)⟩

end Verif.GridPG
