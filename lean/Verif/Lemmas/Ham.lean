import Verif.Model.Hamiltonian
import Verif.Lemmas.LocalOpBuilt

/-! Lemmas for the Hamiltonians: operators representing a given matrix, and products of one-site
matrices. -/

set_option linter.unusedSectionVars false

namespace Verif.Ham
open Verif.Hilbert Verif.LocalOp

section
variable {K : Type} [CommRing K] [DecidableEq K] [Star K] {α : Type} [LinearOrder α] [Inhabited α]
  {N : Nat} {hi : Fin N → List α} {cut : Cutoff K}

/-- `op` is well formed and represents the matrix `A` on the configurations of the space. -/
def Rep (hi : Fin N → List α) (op : LOp K α N) (A : (Fin N → α) → (Fin N → α) → K) : Prop :=
  Good hi op ∧ ∀ x x', Valid hi x → Valid hi x' → matrixOf hi op x x' = A x x'

/-- building the operator succeeds, with matrix `A`. -/
def RepE (hi : Fin N → List α) (t : Except Err (LOp K α N)) (A : (Fin N → α) → (Fin N → α) → K) : Prop :=
  ∃ r, t = .ok r ∧ Rep hi r A

theorem RepE.congr {t : Except Err (LOp K α N)} {A B : (Fin N → α) → (Fin N → α) → K} (h : RepE hi t A)
    (he : ∀ x x', Valid hi x → Valid hi x' → A x x' = B x x') : RepE hi t B := by
  obtain ⟨r, h1, h2, h3⟩ := h
  exact ⟨r, h1, h2, fun x x' hx hx' => (h3 x x' hx hx').trans (he x x' hx hx')⟩

theorem repE_zero (hid : Ideal cut) (hs : SortedSpace hi) :
    RepE hi (LocalOp.mk cut hi (0 : K) []) fun _ _ => 0 := by
  obtain ⟨op, h1, h2, h3, h4⟩ := mk_ok hid hs (0 : K) [] (by intro p hp; simp at hp)
  refine ⟨op, h1, h2, fun x x' hx hx' => ?_⟩
  rw [h4 x x' hx hx']
  simp [matrixOfList]

theorem repE_site (hid : Ideal cut) (hs : SortedSpace hi) (m : Mat K) (i : Fin N)
    (hm : m.n = (hi i).length) :
    RepE hi (LocalOp.mk cut hi 0 [(m, [i])]) (embed hi m.f [i]) := by
  obtain ⟨op, h1, h2, h3, h4⟩ := mk_ok hid hs (0 : K) [(m, [i])] (by
    intro p hp
    rw [List.mem_singleton] at hp; subst hp
    exact ⟨List.nodup_singleton _, List.cons_ne_nil _ _, by simp [dims, hm], Or.inl (by simp)⟩)
  refine ⟨op, h1, h2, fun x x' hx hx' => ?_⟩
  rw [h4 x x' hx hx']
  simp [matrixOfList]

theorem repE_scaled (hid : Ideal cut) (hs : SortedSpace hi) (z : K) {t : Except Err (LOp K α N)}
    {A : (Fin N → α) → (Fin N → α) → K} (h : RepE hi t A) :
    RepE hi (scaled cut hi z t) fun x x' => z * A x x' := by
  obtain ⟨r, rfl, h2, h3⟩ := h
  obtain ⟨o, o1, o2, _, o3⟩ := mulScalar_ok hid hs r h2 z
  exact ⟨o, o1, o2, fun x x' hx hx' => by rw [o3 x x' hx hx', h3 x x' hx hx']⟩

theorem repE_times (hid : Ideal cut) (hs : SortedSpace hi) (hu : Uniform hi) {s t : Except Err (LOp K α N)}
    {A B : (Fin N → α) → (Fin N → α) → K} (h : RepE hi s A) (h' : RepE hi t B) :
    RepE hi (times cut hi s t) (matProd hi A B) := by
  obtain ⟨r, rfl, h2, h3⟩ := h
  obtain ⟨q, rfl, k2, k3⟩ := h'
  obtain ⟨o, o1, o2, o3⟩ := opMatmul_ok hid hs hu r q h2 k2
  exact ⟨o, o1, o2, fun x x' hx hx' => by rw [o3 x x' hx hx', matProd_congr h3 k3 x x' hx hx']⟩

theorem repE_plus (hid : Ideal cut) (hs : SortedSpace hi) {s t : Except Err (LOp K α N)}
    {A B : (Fin N → α) → (Fin N → α) → K} (h : RepE hi s A) (h' : RepE hi t B) :
    RepE hi (plus cut hi s t) fun x x' => A x x' + B x x' := by
  obtain ⟨r, rfl, h2, h3⟩ := h
  obtain ⟨q, rfl, k2, k3⟩ := h'
  obtain ⟨o, o1, o2, o3⟩ := add_ok hid hs r q h2 k2
  exact ⟨o, o1, o2, fun x x' hx hx' => by rw [o3 x x' hx hx', h3 x x' hx hx', k3 x x' hx hx']⟩

theorem repE_minus (hid : Ideal cut) (hs : SortedSpace hi) {s t : Except Err (LOp K α N)}
    {A B : (Fin N → α) → (Fin N → α) → K} (h : RepE hi s A) (h' : RepE hi t B) :
    RepE hi (minus cut hi s t) fun x x' => A x x' - B x x' := by
  obtain ⟨r, rfl, h2, h3⟩ := h
  obtain ⟨q, rfl, k2, k3⟩ := h'
  obtain ⟨o, o1, o2, o3⟩ := sub_ok hid hs r q h2 k2
  exact ⟨o, o1, o2, fun x x' hx hx' => by rw [o3 x x' hx hx', h3 x x' hx hx', k3 x x' hx hx']⟩

theorem repE_plusConst (hid : Ideal cut) (hs : SortedSpace hi) (c : K) {s : Except Err (LOp K α N)}
    {A : (Fin N → α) → (Fin N → α) → K} (h : RepE hi s A) :
    RepE hi (plusConst cut hi s c) fun x x' => A x x' + if x = x' then c else 0 := by
  obtain ⟨r, rfl, h2, h3⟩ := h
  obtain ⟨o, o1, o2, o3⟩ := addScalar_ok hid hs r h2 c
  exact ⟨o, o1, o2, fun x x' hx hx' => by rw [o3 x x' hx hx', h3 x x' hx hx']⟩

theorem repE_isub (hid : Ideal cut) (hs : SortedSpace hi) {a b : LOp K α N}
    {A B : (Fin N → α) → (Fin N → α) → K} (h : Rep hi a A) (h' : Rep hi b B) :
    RepE hi (isub cut hi a b) fun x x' => A x x' - B x x' := by
  obtain ⟨nb, n1, n2, _, n3⟩ := mulScalar_ok hid hs b h'.1 (-1)
  obtain ⟨o, o1, o2, _, o3⟩ := iadd_ok hid a nb h.1 n2
  refine ⟨o, by unfold isub; rw [n1]; exact o1, o2, fun x x' hx hx' => ?_⟩
  rw [o3 x x' hx hx', n3 x x' hx hx', h.2 x x' hx hx', h'.2 x x' hx hx']
  ring

theorem repE_iadd (hid : Ideal cut) {a b : LOp K α N}
    {A B : (Fin N → α) → (Fin N → α) → K} (h : Rep hi a A) (h' : Rep hi b B) :
    RepE hi (LocalOp.iadd cut hi a b) fun x x' => A x x' + B x x' := by
  obtain ⟨o, o1, o2, _, o3⟩ := iadd_ok hid a b h.1 h'.1
  exact ⟨o, o1, o2, fun x x' hx hx' => by rw [o3 x x' hx hx', h.2 x x' hx hx', h'.2 x x' hx hx']⟩

theorem repE_addTerms (hid : Ideal cut) {ι : Type} (l : List ι) (t : ι → Except Err (LOp K α N))
    (T : ι → (Fin N → α) → (Fin N → α) → K) (ht : ∀ i ∈ l, RepE hi (t i) (T i)) (ha : LOp K α N)
    (A : (Fin N → α) → (Fin N → α) → K) (h : Rep hi ha A) :
    RepE hi (addTerms cut hi ha (l.map t)) fun x x' => A x x' + (l.map fun i => T i x x').sum := by
  induction l generalizing ha A with
  | nil => exact ⟨ha, rfl, h.1, fun x x' hx hx' => by simp [h.2 x x' hx hx']⟩
  | cons i l ih =>
    obtain ⟨o, o1, o2⟩ := ht i (List.mem_cons_self ..)
    obtain ⟨r, r1, r2⟩ := repE_iadd hid h o2
    obtain ⟨s, s1, s2⟩ := ih (fun j hj => ht j (List.mem_cons_of_mem _ hj)) r _ r2
    refine ⟨s, ?_, s2.1, fun x x' hx hx' => ?_⟩
    · rw [List.map_cons, o1, addTerms, r1]; exact s1
    · rw [s2.2 x x' hx hx']; simp only [List.map_cons, List.sum_cons, add_assoc]

theorem repE_subTerms (hid : Ideal cut) (hs : SortedSpace hi) {ι : Type} (l : List ι)
    (t : ι → Except Err (LOp K α N))
    (T : ι → (Fin N → α) → (Fin N → α) → K) (ht : ∀ i ∈ l, RepE hi (t i) (T i)) (ha : LOp K α N)
    (A : (Fin N → α) → (Fin N → α) → K) (h : Rep hi ha A) :
    RepE hi (subTerms cut hi ha (l.map t)) fun x x' => A x x' - (l.map fun i => T i x x').sum := by
  induction l generalizing ha A with
  | nil => exact ⟨ha, rfl, h.1, fun x x' hx hx' => by simp [h.2 x x' hx hx']⟩
  | cons i l ih =>
    obtain ⟨o, o1, o2⟩ := ht i (List.mem_cons_self ..)
    obtain ⟨r, r1, r2⟩ := repE_isub hid hs h o2
    obtain ⟨s, s1, s2⟩ := ih (fun j hj => ht j (List.mem_cons_of_mem _ hj)) r _ r2
    refine ⟨s, ?_, s2.1, fun x x' hx hx' => ?_⟩
    · rw [List.map_cons, o1, subTerms, r1]; exact s1
    · rw [s2.2 x x' hx hx']; simp only [List.map_cons, List.sum_cons]; ring

/-! ### one-site matrices -/

/-- matrix element of a matrix on one site, by the local quantum numbers. -/
theorem embed_site (m : Nat → Nat → K) (i : Fin N) (x x' : Fin N → α) :
    embed hi m [i] x x'
      = if ∀ s, s ≠ i → x s = x' s then m ((hi i).idxOf (x i)) ((hi i).idxOf (x' i)) else 0 := by
  simp [embed, lexIdx, Verif.Radix.enc]

/-- product of diagonal matrices. -/
theorem matProd_diag (f g : (Fin N → α) → K) (x x' : Fin N → α) (hx : Valid hi x) :
    matProd hi (fun x y => if x = y then f x else 0) (fun x y => if x = y then g x else 0) x x'
      = if x = x' then f x * g x else 0 := by
  unfold matProd
  rw [Finset.sum_eq_single x]
  · by_cases h : x = x'
    · simp [h]
    · simp [h]
  · intro y _ hy
    beta_reduce
    rw [if_neg (Ne.symm hy), zero_mul]
  · intro h
    exact absurd ((mem_basis x).2 hx) h

/-- product of two one-site matrices on different sites. -/
theorem matProd_sites (a b : α → α → K) (i j : Fin N) (hij : i ≠ j) (x x' : Fin N → α)
    (hx : Valid hi x) (hx' : Valid hi x') :
    matProd hi (fun x y => if ∀ s, s ≠ i → x s = y s then a (x i) (y i) else 0)
        (fun x y => if ∀ s, s ≠ j → x s = y s then b (x j) (y j) else 0) x x'
      = if ∀ s, s ≠ i → s ≠ j → x s = x' s then a (x i) (x' i) * b (x j) (x' j) else 0 := by
  unfold matProd
  rw [Finset.sum_eq_single (Function.update x i (x' i))]
  · have e1 : ∀ s, s ≠ i → x s = Function.update x i (x' i) s := fun s hs => by
      rw [Function.update_of_ne hs]
    beta_reduce
    rw [if_pos e1, Function.update_self, Function.update_of_ne hij.symm]
    by_cases h : ∀ s, s ≠ i → s ≠ j → x s = x' s
    · rw [if_pos h, if_pos]
      intro s hs
      by_cases hsi : s = i
      · subst hsi; rw [Function.update_self]
      · rw [Function.update_of_ne hsi]; exact h s hsi hs
    · rw [if_neg h, if_neg, mul_zero]
      intro hc
      exact h fun s hs hs' => by rw [← hc s hs', Function.update_of_ne hs]
  · intro y _ hy
    beta_reduce
    by_cases h1 : ∀ s, s ≠ i → x s = y s
    · rw [if_pos h1, if_neg, mul_zero]
      intro h2
      apply hy
      funext s
      by_cases hs : s = i
      · subst hs; rw [Function.update_self]; exact h2 s hij
      · rw [Function.update_of_ne hs]; exact (h1 s hs).symm
    · rw [if_neg h1, zero_mul]
  · intro h
    refine absurd ((mem_basis _).2 ?_) h
    intro s
    by_cases hs : s = i
    · subst hs; rw [Function.update_self]; exact hx' s
    · rw [Function.update_of_ne hs]; exact hx s

end

theorem foldl_add_sum {K ι : Type} [AddCommMonoid K] (f : ι → K) (l : List ι) (a : K) :
    l.foldl (fun m e => m + f e) a = a + (l.map f).sum := by
  induction l generalizing a with
  | nil => simp
  | cons e l ih => rw [List.foldl_cons, ih, List.map_cons, List.sum_cons, add_assoc]

/-- a loop appending rows and recording the total length. -/
theorem foldl_rows {β γ : Type} (row : β → List γ) (xs : List β) (a : List γ) (s : List Nat) :
    xs.foldl (fun out x => (out.1 ++ row x, out.2 ++ [(out.1 ++ row x).length])) (a, s)
      = (a ++ xs.flatMap row, s ++ runningTotals a.length (xs.map fun x => (row x).length)) := by
  induction xs generalizing a s with
  | nil => simp [runningTotals]
  | cons x xs ih =>
    rw [List.foldl_cons, ih]
    simp [runningTotals, List.flatMap_cons, List.append_assoc]

end Verif.Ham
