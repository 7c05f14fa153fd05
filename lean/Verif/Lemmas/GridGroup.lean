import Verif.Model.GridGroup
import Verif.Props.PointGroupsOps
import Mathlib.Data.List.Perm.Basic
import Mathlib.Data.List.FinRange
import Mathlib.Data.Fintype.Perm

/-! Signed permutations of axes. -/

namespace Verif.GridPG
open Verif.Hilbert (Err)
open Verif.PGrp Matrix

/-! ### permutations of a list -/

theorem permutations_mem {α : Type} (n : Nat) (l : List α) (hl : l.length = n) (p : List α) : p ∈ permutations n l ↔ p.Perm l := by
  induction n generalizing l p with
  | zero =>
    obtain rfl : l = [] := List.length_eq_zero_iff.1 hl
    simp [permutations]
  | succ n ih =>
    simp only [permutations, List.mem_flatMap, List.mem_range, Option.mem_toList, List.mem_map]
    constructor
    · rintro ⟨i, hi, a, ha, q, hq, rfl⟩
      rw [ih _ (by rw [List.length_eraseIdx, if_pos hi, hl]; rfl)] at hq
      obtain ⟨h1, h2⟩ := List.getElem?_eq_some_iff.1 ha
      subst h2
      exact (List.Perm.cons _ hq).trans (List.getElem_cons_eraseIdx_perm hi)
    · intro h
      cases p with
      | nil => have := h.length_eq; simp [hl] at this
      | cons a q =>
        have ha : a ∈ l := h.subset (by simp)
        obtain ⟨i, hi, rfl⟩ := List.mem_iff_getElem.1 ha
        refine ⟨i, hi, l[i], List.getElem?_eq_getElem hi, q, ?_, rfl⟩
        rw [ih _ (by rw [List.length_eraseIdx, if_pos hi, hl]; rfl)]
        exact (List.perm_cons l[i]).1 (h.trans (List.getElem_cons_eraseIdx_perm hi).symm)

theorem permutations_nodup {α : Type} (n : Nat) (l : List α) (hl : l.length = n) (hnd : l.Nodup) : (permutations n l).Nodup := by
  induction n generalizing l with
  | zero => simp [permutations]
  | succ n ih =>
    unfold permutations
    rw [List.nodup_flatMap]
    constructor
    · intro i hi
      rw [List.mem_range] at hi
      rw [List.getElem?_eq_getElem hi]
      simp only [Option.toList_some, List.flatMap_cons, List.flatMap_nil, List.append_nil]
      exact List.Nodup.map (fun x y h => (List.cons.inj h).2) (ih _ (by rw [List.length_eraseIdx, if_pos hi, hl]; rfl) (hnd.eraseIdx i))
    · refine List.Pairwise.imp_of_mem ?_ (List.nodup_range (n := l.length))
      intro i j hi hj hij
      rw [List.mem_range] at hi hj
      rw [Function.onFun, List.getElem?_eq_getElem hi, List.getElem?_eq_getElem hj]
      simp only [Option.toList_some, List.flatMap_cons, List.flatMap_nil, List.append_nil]
      intro x hx hy
      obtain ⟨p, _, rfl⟩ := List.mem_map.1 hx
      obtain ⟨q, _, h⟩ := List.mem_map.1 hy
      exact hij ((List.Nodup.getElem_inj_iff hnd).1 (List.cons.inj h).1.symm)

theorem permutations_head {α : Type} (n : Nat) (l : List α) (hl : l.length = n) : ∃ r, permutations n l = l :: r := by
  induction n generalizing l with
  | zero =>
    obtain rfl : l = [] := List.length_eq_zero_iff.1 hl
    exact ⟨[], rfl⟩
  | succ n ih =>
    cases l with
    | nil => simp at hl
    | cons a l =>
      obtain ⟨r, hr⟩ := ih l (by simpa using hl)
      unfold permutations
      rw [List.length_cons, List.range_succ_eq_map, List.flatMap_cons]
      simp only [List.getElem?_cons_zero, Option.toList_some, List.flatMap_cons, List.flatMap_nil, List.append_nil,
        List.eraseIdx_cons_zero, hr, List.map_cons, List.cons_append]
      exact ⟨_, rfl⟩

/-! ### signed permutation matrices -/

variable {d : Nat}

/-- the matrix of `x ↦ (i ↦ t (σ i) * x (σ i))`. -/
def signed (σ : Equiv.Perm (Fin d)) (t : Fin d → ℝ) : Matrix (Fin d) (Fin d) ℝ := of fun i j => if σ i = j then t j else 0

theorem signed_mulVec (σ : Equiv.Perm (Fin d)) (t x : Fin d → ℝ) (i : Fin d) : (signed σ t *ᵥ x) i = t (σ i) * x (σ i) := by
  simp [signed, Matrix.mulVec, dotProduct]

theorem signed_mul (σ τ : Equiv.Perm (Fin d)) (t s : Fin d → ℝ) :
    signed σ t * signed τ s = signed (σ.trans τ) fun j => t (τ.symm j) * s j := by
  apply Matrix.ext_of_mulVec_single
  intro k
  ext i
  rw [← Matrix.mulVec_mulVec, signed_mulVec, signed_mulVec, signed_mulVec]
  simp [mul_assoc]

theorem signed_one : signed (1 : Equiv.Perm (Fin d)) (fun _ => 1) = 1 := by
  ext i j
  by_cases h : i = j
  · subst h; simp [signed]
  · simp [signed, h]

theorem signed_tr (σ : Equiv.Perm (Fin d)) (t : Fin d → ℝ) : (signed σ t)ᵀ = signed σ.symm fun j => t (σ j) := by
  ext i j
  simp only [signed, transpose_apply, of_apply]
  by_cases h : σ j = i
  · subst h; simp
  · rw [if_neg h, if_neg]
    rintro rfl; simp at h

theorem signed_orth (σ : Equiv.Perm (Fin d)) (t : Fin d → ℝ) (ht : ∀ i, t i = 1 ∨ t i = -1) : (signed σ t)ᵀ * signed σ t = 1 := by
  rw [signed_tr, signed_mul, Equiv.symm_trans_self]
  have : (fun j => (fun j => t (σ j)) (σ.symm j) * t j) = fun _ => (1 : ℝ) := by
    funext j
    simp only [Equiv.apply_symm_apply]
    rcases ht j with h | h <;> rw [h] <;> norm_num
  rw [this]
  exact signed_one

theorem signed_inj (σ τ : Equiv.Perm (Fin d)) (t s : Fin d → ℝ) (ht : ∀ i, t i ≠ 0) (h : signed σ t = signed τ s) :
    σ = τ ∧ t = s := by
  have h1 : σ = τ := by
    ext i : 1
    have := congrFun (congrFun h i) (σ i)
    simp only [signed, of_apply, if_true] at this
    by_contra hne
    rw [if_neg (Ne.symm hne)] at this
    exact ht _ this
  subst h1
  refine ⟨rfl, funext fun j => ?_⟩
  have := congrFun (congrFun h (σ.symm j)) j
  simpa [signed] using this

/-- lists of axes which are permutations. -/
theorem perm_list (p : List (Fin d)) (hp : p.Perm (List.finRange d)) : ∃ σ : Equiv.Perm (Fin d), p = List.ofFn σ := by
  have hlen : p.length = d := by rw [hp.length_eq, List.length_finRange]
  have hnd : p.Nodup := hp.nodup_iff.2 (List.nodup_finRange d)
  have hinj : Function.Injective fun i : Fin d => p[(i : Nat)]'(by rw [hlen]; exact i.2) := by
    intro i j h
    exact Fin.ext ((List.Nodup.getElem_inj_iff hnd).1 h)
  refine ⟨Equiv.ofBijective _ (Finite.injective_iff_bijective.1 hinj), ?_⟩
  apply List.ext_getElem
  · simp [hlen]
  · intro i h1 h2
    simp

theorem ofFn_perm (σ : Equiv.Perm (Fin d)) : (List.ofFn σ).Perm (List.finRange d) := by
  rw [List.perm_ext_iff_of_nodup (List.nodup_ofFn.2 σ.injective) (List.nodup_finRange d)]
  intro a
  simp [List.mem_ofFn, σ.surjective a]

theorem ofFn_get (σ : Equiv.Perm (Fin d)) (i : Fin d) : (List.ofFn σ)[(i : Nat)]? = some (σ i) := by
  simp

/-- the axes are exchanged with axes of the same length and the same boundary conditions. -/
def Compatible (ext : Fin d → Nat) (pbc : Fin d → Bool) (σ : Equiv.Perm (Fin d)) : Prop := ∀ i, ext (σ i) = ext i ∧ pbc (σ i) = pbc i

theorem kind_eq (ext : Fin d → Nat) (pbc : Fin d → Bool) (hpos : ∀ i, 0 < ext i) (i j : Fin d) :
    kind ext pbc i = kind ext pbc j ↔ ext j = ext i ∧ pbc j = pbc i := by
  have h1 := hpos i
  have h2 := hpos j
  unfold kind
  cases pbc i <;> cases pbc j <;> simp <;> omega

theorem sameKind_iff (ext : Fin d → Nat) (pbc : Fin d → Bool) (hpos : ∀ i, 0 < ext i) (σ : Equiv.Perm (Fin d)) :
    sameKind ext pbc (List.ofFn σ) = true ↔ Compatible ext pbc σ := by
  unfold sameKind Compatible
  rw [decide_eq_true_iff]
  simp only [ofFn_get, Option.some.injEq]
  constructor
  · intro h i
    exact (kind_eq ext pbc hpos i (σ i)).1 (h i _ rfl)
  · rintro h i j rfl
    exact (kind_eq ext pbc hpos i (σ i)).2 (h i)

theorem permMatrix_eq (σ : Equiv.Perm (Fin d)) :
    (of fun (i j : Fin d) => if (List.ofFn σ)[(i : Nat)]? = some j then (1 : ℝ) else 0) = signed σ fun _ => 1 := by
  ext i j
  simp only [of_apply, signed, ofFn_get, Option.some.injEq]

/-- the reflection of one axis. -/
def flipOne (a i : Fin d) : ℝ := if i = a then -1 else 1

theorem flipOne_sign (a i : Fin d) : flipOne a i = 1 ∨ flipOne a i = -1 := by
  unfold flipOne; split_ifs <;> simp

theorem reflMatrix_eq (a : Fin d) :
    (of fun (i j : Fin d) => if i = a ∧ j = a then -1 else (1 : Matrix (Fin d) (Fin d) ℝ) i j) = signed 1 (flipOne a) := by
  ext i j
  by_cases h : i = j
  · subst h
    by_cases h' : i = a <;> simp [signed, flipOne, h']
  · have : ¬(i = a ∧ j = a) := fun ⟨h1, h2⟩ => h (h1.trans h2.symm)
    simp [signed, h, this]

/-- a call returns linear elements. -/
def Lins (r : Except Err (PG d)) (Ws : List (Matrix (Fin d) (Fin d) ℝ)) : Prop :=
  ∃ es, r = .ok ⟨es, none⟩ ∧ List.Forall₂ Lin es Ws

theorem lins_prod (A B : Except Err (PG d)) (Ws Vs : List (Matrix (Fin d) (Fin d) ℝ)) (hA : Lins A Ws) (hB : Lins B Vs) :
    Lins (prodOf A B) (Ws.flatMap fun W => Vs.map fun V => W * V) := by
  obtain ⟨as, rfl, h1⟩ := hA
  obtain ⟨bs, rfl, h2⟩ := hB
  obtain ⟨cs, h3, h4⟩ := collect_pairs as bs Ws Vs h1 h2
  refine ⟨cs, ?_, h4⟩
  simp only [prodOf, PG.prod, prodCell, h3]

/-- the signed permutations of compatible axes whose signs differ from one only on the given axes. -/
def Among (ext : Fin d → Nat) (pbc : Fin d → Bool) (as : List (Fin d)) (W : Matrix (Fin d) (Fin d) ℝ) : Prop :=
  ∃ σ t, Compatible ext pbc σ ∧ (∀ i, t i = 1 ∨ t i = -1) ∧ (∀ i, i ∉ as → t i = 1) ∧ W = signed σ t

/-- what the loop maintains. -/
def Stage (ext : Fin d → Nat) (pbc : Fin d → Bool) (as : List (Fin d)) (Ws : List (Matrix (Fin d) (Fin d) ℝ)) : Prop :=
  Ws.head? = some 1 ∧ Ws.Nodup ∧ ∀ W, W ∈ Ws ↔ Among ext pbc as W

theorem stage_perms (ext : Fin d → Nat) (pbc : Fin d → Bool) (hpos : ∀ i, 0 < ext i) :
    ∃ Ws, Lins (axisPerms ext pbc) Ws ∧ Stage ext pbc [] Ws := by
  have hmem : ∀ p, p ∈ (permutations d (List.finRange d)).filter (sameKind ext pbc) ↔ ∃ σ : Equiv.Perm (Fin d), p = List.ofFn σ ∧ Compatible ext pbc σ := by
    intro p
    rw [List.mem_filter, permutations_mem d _ (List.length_finRange)]
    constructor
    · rintro ⟨h1, h2⟩
      obtain ⟨σ, rfl⟩ := perm_list p h1
      exact ⟨σ, rfl, (sameKind_iff ext pbc hpos σ).1 h2⟩
    · rintro ⟨σ, rfl, h⟩
      exact ⟨ofFn_perm σ, (sameKind_iff ext pbc hpos σ).2 h⟩
  let M : List (Fin d) → Matrix (Fin d) (Fin d) ℝ := fun p => of fun (i j : Fin d) => if p[(i : Nat)]? = some j then (1 : ℝ) else 0
  have hM : ∀ σ : Equiv.Perm (Fin d), M (List.ofFn σ) = signed σ fun _ => 1 := permMatrix_eq
  obtain ⟨es, h1, h2⟩ := collect_ok (fun p => symElem (permSymm p)) Lin ((permutations d (List.finRange d)).filter (sameKind ext pbc)) M (by
    intro p hp
    obtain ⟨σ, rfl, _⟩ := (hmem p).1 hp
    have ho : (M (List.ofFn σ))ᵀ * M (List.ofFn σ) = 1 := by rw [hM]; exact signed_orth σ _ fun _ => .inl rfl
    refine ⟨.sym ⟨block (M (List.ofFn σ)) 0⟩, ?_, lin_sym _ ho⟩
    unfold permSymm
    change symElem (mkPG (M (List.ofFn σ)) none) = _
    rw [mkPG_none _ ho]; rfl)
  refine ⟨_, ⟨es, by simp only [axisPerms, h1], h2⟩, ?_, ?_, ?_⟩
  · obtain ⟨r, hr⟩ := permutations_head d (List.finRange d) List.length_finRange
    have e : List.finRange d = List.ofFn (1 : Equiv.Perm (Fin d)) := by rw [List.ofFn_eq_map]; simp
    have hk : sameKind ext pbc (List.finRange d) = true := by
      rw [e, sameKind_iff ext pbc hpos]
      exact fun i => ⟨rfl, rfl⟩
    rw [hr, List.filter_cons_of_pos hk, List.map_cons, List.head?_cons, e, hM, signed_one]
  · refine List.Nodup.map_on ?_ ((permutations_nodup d _ List.length_finRange (List.nodup_finRange d)).filter _)
    intro p hp q hq h
    obtain ⟨σ, rfl, _⟩ := (hmem p).1 hp
    obtain ⟨τ, rfl, _⟩ := (hmem q).1 hq
    rw [hM, hM] at h
    rw [(signed_inj σ τ _ _ (fun _ => one_ne_zero) h).1]
  · intro W
    rw [List.mem_map]
    constructor
    · rintro ⟨p, hp, rfl⟩
      obtain ⟨σ, rfl, hσ⟩ := (hmem p).1 hp
      exact ⟨σ, fun _ => 1, hσ, fun _ => .inl rfl, fun _ _ => rfl, hM σ⟩
    · rintro ⟨σ, t, hσ, ht, ht', rfl⟩
      refine ⟨List.ofFn σ, (hmem _).2 ⟨σ, rfl, hσ⟩, ?_⟩
      rw [hM]
      congr 1
      funext i
      exact (ht' i (by simp)).symm

theorem sign_ne_zero {x : ℝ} (h : x = 1 ∨ x = -1) : x ≠ 0 := by
  rcases h with rfl | rfl <;> norm_num

theorem signed_mul_flip (σ : Equiv.Perm (Fin d)) (t : Fin d → ℝ) (a : Fin d) :
    signed σ t * signed 1 (flipOne a) = signed σ fun j => t j * flipOne a j := by
  rw [signed_mul]; rfl

theorem stage_step (ext : Fin d → Nat) (pbc : Fin d → Bool) (as : List (Fin d)) (a : Fin d) (ha : a ∉ as)
    (G : Except Err (PG d)) (Ws : List (Matrix (Fin d) (Fin d) ℝ)) (h1 : Lins G Ws) (h2 : Stage ext pbc as Ws) :
    ∃ Vs, Lins (prodOf G (pairGroup (axisReflection a))) Vs ∧ Stage ext pbc (as ++ [a]) Vs := by
  have ho : (signed (1 : Equiv.Perm (Fin d)) (flipOne a))ᵀ * signed 1 (flipOne a) = 1 := signed_orth _ _ (flipOne_sign a)
  have hB : Lins (pairGroup (axisReflection a)) [1, signed 1 (flipOne a)] := by
    unfold axisReflection
    rw [reflMatrix_eq]
    obtain ⟨es, k1, k2⟩ := pre_pair _ ho
    exact ⟨_, k1, k2⟩
  refine ⟨_, lins_prod _ _ _ _ h1 hB, ?_, ?_, ?_⟩
  · obtain ⟨h3, _⟩ := h2
    cases Ws with
    | nil => simp at h3
    | cons W Ws =>
      simp only [List.head?_cons, Option.some.injEq] at h3
      subst h3
      simp
  · rw [List.nodup_flatMap]
    have hne : ∀ W ∈ Ws, ∀ V ∈ Ws, W ≠ V * signed 1 (flipOne a) := by
      intro W hW V hV h
      obtain ⟨σ, t, _, h3, h4, rfl⟩ := (h2.2.2 W).1 hW
      obtain ⟨τ, s, _, h5, h6, rfl⟩ := (h2.2.2 V).1 hV
      rw [signed_mul_flip] at h
      have := congrFun (signed_inj σ τ _ _ (fun i => sign_ne_zero (h3 i)) h).2 a
      rw [h4 a ha, h6 a ha] at this
      simp only [flipOne, if_true] at this
      norm_num at this
    constructor
    · intro W hW
      simp only [List.map_cons, List.map_nil, Matrix.mul_one, List.nodup_cons, List.mem_singleton, List.not_mem_nil,
        not_false_eq_true, List.nodup_nil, and_true]
      exact hne W hW W hW
    · refine List.Pairwise.imp_of_mem ?_ h2.2.1
      intro W V hW hV hWV
      simp only [Function.onFun, List.map_cons, List.map_nil, Matrix.mul_one]
      intro x hx hy
      simp only [List.mem_cons, List.not_mem_nil, or_false] at hx hy
      rcases hx with rfl | rfl <;> rcases hy with hy | hy
      · exact hWV hy
      · exact hne _ hW _ hV hy
      · exact hne _ hV _ hW hy.symm
      · apply hWV
        have hsq : signed (1 : Equiv.Perm (Fin d)) (flipOne a) * (signed 1 (flipOne a))ᵀ = 1 := mul_eq_one_comm.1 ho
        have := congrArg (· * (signed (1 : Equiv.Perm (Fin d)) (flipOne a))ᵀ) hy
        simpa only [Matrix.mul_assoc, hsq, Matrix.mul_one] using this
  · intro W
    simp only [List.mem_flatMap, List.map_cons, List.map_nil, Matrix.mul_one, List.mem_cons, List.not_mem_nil, or_false]
    constructor
    · rintro ⟨V, hV, h⟩
      obtain ⟨σ, t, h3, h4, h5, rfl⟩ := (h2.2.2 V).1 hV
      rcases h with rfl | rfl
      · exact ⟨σ, t, h3, h4, fun i hi => h5 i fun h => hi (by simp [h]), rfl⟩
      · refine ⟨σ, _, h3, fun i => ?_, fun i hi => ?_, signed_mul_flip σ t a⟩
        · rcases h4 i with h | h <;> rcases flipOne_sign a i with h' | h' <;> simp [h, h']
        · have h6 : i ∉ as := fun h => hi (by simp [h])
          have h7 : i ≠ a := fun h => hi (by simp [h])
          simp [h5 i h6, flipOne, h7]
    · rintro ⟨σ, t, h3, h4, h5, rfl⟩
      rcases h4 a with h6 | h6
      · refine ⟨signed σ t, (h2.2.2 _).2 ⟨σ, t, h3, h4, fun i hi => ?_, rfl⟩, .inl rfl⟩
        by_cases h : i = a
        · rw [h, h6]
        · exact h5 i (by simp [hi, h])
      · refine ⟨signed σ fun j => t j * flipOne a j, (h2.2.2 _).2 ⟨σ, _, h3, fun i => ?_, fun i hi => ?_, rfl⟩, .inr ?_⟩
        · rcases h4 i with h | h <;> rcases flipOne_sign a i with h' | h' <;> simp [h, h']
        · by_cases h : i = a
          · subst h; simp [h6, flipOne]
          · rw [h5 i (by simp [hi, h])]
            simp [flipOne, h]
        · rw [signed_mul_flip]
          congr 1
          funext j
          rw [mul_assoc]
          rcases flipOne_sign a j with h' | h' <;> simp [h']

theorem stage_all (ext : Fin d → Nat) (pbc : Fin d → Bool) (hpos : ∀ i, 0 < ext i) :
    ∃ Ws, Lins (withReflections (axisPerms ext pbc)) Ws ∧ Stage ext pbc (List.finRange d) Ws := by
  have key : ∀ (bs as : List (Fin d)) (G : Except Err (PG d)) Ws, (as ++ bs).Nodup → Lins G Ws → Stage ext pbc as Ws →
      ∃ Vs, Lins (bs.foldl (fun G i => prodOf G (pairGroup (axisReflection i))) G) Vs ∧ Stage ext pbc (as ++ bs) Vs := by
    intro bs
    induction bs with
    | nil => intro as G Ws _ h1 h2; exact ⟨Ws, h1, by simpa using h2⟩
    | cons b bs ih =>
      intro as G Ws hnd h1 h2
      have hb : b ∉ as := fun h => (List.nodup_append.1 hnd).2.2 b h b (by simp) rfl
      obtain ⟨Vs, h3, h4⟩ := stage_step ext pbc as b hb G Ws h1 h2
      obtain ⟨Us, h5, h6⟩ := ih (as ++ [b]) _ Vs (by simpa using hnd) h3 h4
      exact ⟨Us, h5, by simpa using h6⟩
  obtain ⟨Ws, h1, h2⟩ := stage_perms ext pbc hpos
  obtain ⟨Vs, h3, h4⟩ := key (List.finRange d) [] _ Ws (by simpa using List.nodup_finRange d) h1 h2
  exact ⟨Vs, h3, by simpa using h4⟩

end Verif.GridPG
