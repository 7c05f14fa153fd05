import Verif.Props.Rules
import Mathlib.Algebra.Order.Floor.Ring

/-! C53: the Hamiltonian rule. -/

namespace Verif.Metro

open Verif.Markov MeasureTheory Finset

set_option linter.unusedSectionVars false

theorem sectionsOf_cons (n : Nat) (ns : List Nat) :
    sectionsOf (n :: ns) = n :: (sectionsOf ns).map (n + ·) := by
  simp only [sectionsOf, List.length_cons, List.range_succ_eq_map, List.map_cons, List.map_map]
  simp [Function.comp_def]

theorem nConn_sections (ns : List Nat) (low : Nat) :
    nConnFromSections low ((sectionsOf ns).map (low + ·)) = ns := by
  induction ns generalizing low with
  | nil => rfl
  | cons n ns ih =>
    rw [sectionsOf_cons, List.map_cons, nConnFromSections, List.map_map]
    have := ih (low + n)
    simp only [Function.comp_def, ← Nat.add_assoc] at this ⊢
    rw [this]
    simp

/-- `_n_conn_from_sections` inverts the running totals. -/
theorem C53_n_conn (ns : List Nat) : nConnFromSections 0 (sectionsOf ns) = ns := by
  have := nConn_sections ns 0
  simpa using this

section
variable {X R : Type} [Field R] [LinearOrder R] [IsStrictOrderedRing R] [FloorRing R]

theorem floor_index (r : R) (n : Nat) (hn : 0 < n) (h0 : 0 ≤ r) (h1 : r < 1) :
    ⌊r * (n : R)⌋.toNat < n := by
  have hn' : (0 : R) < n := by exact_mod_cast hn
  have h2 : ⌊r * (n : R)⌋ < (n : Int) := by
    rw [Int.floor_lt]
    push_cast
    nlinarith
  omega

theorem choose_eq (log : R → R) (conn : X → List X) (xs : List X) (pre : List X) (rs : List R)
    (hne : ∀ x ∈ xs, conn x ≠ []) (hr : ∀ r ∈ rs, 0 ≤ r ∧ r < 1) :
    choose log (pre ++ xs.flatMap conn) pre.length
      ((sectionsOf (xs.map fun x => (conn x).length)).map (pre.length + ·)) rs
    = List.zipWith (fun x r => ((conn x)[⌊r * ((conn x).length : R)⌋.toNat]?,
        log ((conn x).length : R))) xs rs := by
  induction xs generalizing pre rs with
  | nil => simp [sectionsOf, choose]
  | cons x xs ih =>
    cases rs with
    | nil => rw [List.map_cons, sectionsOf_cons, List.map_cons]; simp [choose]
    | cons r rs =>
      rw [List.map_cons, sectionsOf_cons, List.map_cons, choose, List.zipWith_cons_cons,
        List.map_map, List.flatMap_cons]
      have hn : 0 < (conn x).length := List.length_pos_iff.2 (hne x (by simp))
      have hcast : (((pre.length + (conn x).length : Nat) : R) - (pre.length : R))
          = ((conn x).length : R) := by push_cast; ring
      have hidx := floor_index r _ hn (hr r (by simp)).1 (hr r (by simp)).2
      rw [hcast]
      congr 1
      · congr 1
        rw [List.getElem?_append_right (by omega), Nat.add_sub_cancel_left,
          List.getElem?_append_left hidx]
      · have := ih (pre ++ conn x) rs (fun y hy => hne y (by simp [hy]))
          (fun q hq => hr q (by simp [hq]))
        simp only [List.length_append, List.append_assoc] at this
        rw [← this]
        congr 1
        simp [Function.comp_def, Nat.add_assoc]

theorem mapM_fst {α β : Type} (l : List (Option α × β)) (m : List α)
    (h : l.map (·.1) = m.map some) : l.mapM (·.1) = some m := by
  induction l generalizing m with
  | nil =>
    cases m with
    | nil => rfl
    | cons a m => simp at h
  | cons p l ih =>
    cases m with
    | nil => simp at h
    | cons a m =>
      simp only [List.map_cons, List.cons.injEq] at h
      rw [List.mapM_cons, h.1, ih m h.2]
      rfl

/-- Row by row, the Hamiltonian rule proposes the connected configuration number `⌊r * n(x)⌋` and
    reports `log n(x) - log n(x')`. -/
theorem C53_transition (log : R → R) (conn : X → List X) (xs : List X) (rs : List R)
    (hlen : rs.length = xs.length) (hne : ∀ x ∈ xs, conn x ≠ [])
    (hr : ∀ r ∈ rs, 0 ≤ r ∧ r < 1) :
    ∃ props corr, hamiltonianTransition log conn rs xs = some (props, some corr) ∧
      props.length = xs.length ∧ corr.length = xs.length ∧
      ∀ (i : Nat) (x : X) (r : R), xs[i]? = some x → rs[i]? = some r →
        ∃ y, (conn x)[⌊r * ((conn x).length : R)⌋.toNat]? = some y ∧ props[i]? = some y ∧
          corr[i]? = some (log ((conn x).length : R) - log ((conn y).length : R)) := by
  have hch := choose_eq log conn xs [] rs hne hr
  simp only [List.nil_append, List.length_nil, Nat.zero_add, List.map_id'] at hch
  have hex : ∃ props : List X, props.length = xs.length ∧
      List.zipWith (fun x r => (conn x)[⌊r * ((conn x).length : R)⌋.toNat]?) xs rs
        = props.map some := by
    clear hch
    induction xs generalizing rs with
    | nil => exact ⟨[], rfl, by simp⟩
    | cons x xs ih =>
      cases rs with
      | nil => simp at hlen
      | cons r rs =>
        obtain ⟨props, hp, he⟩ := ih rs (by simpa using hlen) (fun y hy => hne y (by simp [hy]))
          (fun q hq => hr q (by simp [hq]))
        have hidx := floor_index r _ (List.length_pos_iff.2 (hne x (by simp)))
          (hr r (by simp)).1 (hr r (by simp)).2
        refine ⟨(conn x)[⌊r * ((conn x).length : R)⌋.toNat] :: props, by simp [hp], ?_⟩
        rw [List.zipWith_cons_cons, he, List.map_cons, List.getElem?_eq_getElem hidx]
  obtain ⟨props, hpl, hp⟩ := hex
  have hM : (List.zipWith (fun x r => ((conn x)[⌊r * ((conn x).length : R)⌋.toNat]?,
        log ((conn x).length : R))) xs rs).mapM (·.1) = some props := by
    refine mapM_fst _ _ ?_
    rw [List.map_zipWith, hp]
  have heq : hamiltonianTransition log conn rs xs = some (props, some (List.zipWith
      (fun c (n : Nat) => c - log (n : R))
      ((List.zipWith (fun x r => ((conn x)[⌊r * ((conn x).length : R)⌋.toNat]?,
        log ((conn x).length : R))) xs rs).map (·.2))
      (nConnFromSections 0 (sectionsOf (props.map fun x => (conn x).length))))) := by
    simp only [hamiltonianTransition]
    rw [hch, hM]
  refine ⟨props, _, heq, hpl, ?_, ?_⟩
  · simp [C53_n_conn, hpl, hlen]
  · intro i x r hx hri
    have h1 := congrArg (fun l : List (Option X) => l[i]?) hp
    simp only [List.getElem?_zipWith, hx, hri, List.getElem?_map] at h1
    rcases hq : props[i]? with _ | y
    · rw [hq] at h1; simp at h1
    · rw [hq] at h1
      simp only [Option.map_some, Option.some.injEq] at h1
      refine ⟨y, h1, rfl, ?_⟩
      simp [C53_n_conn, List.getElem?_zipWith, hx, hri, hq]

end

theorem count_fin {X : Type} [DecidableEq X] (l : List X) (y : X) (M : Nat) (hl : l.length ≤ M) :
    (univ.filter fun d : Fin M => l[(d : Nat)]? = some y).card = l.count y := by
  induction l generalizing M with
  | nil => simp
  | cons a l ih =>
    cases M with
    | zero => simp at hl
    | succ M =>
      rw [List.count_cons, ← ih M (by simpa using hl), Finset.card_filter, Finset.card_filter,
        Fin.sum_univ_succ]
      simp only [Fin.val_zero, List.getElem?_cons_zero, Option.some.injEq, Fin.val_succ,
        List.getElem?_cons_succ, beq_iff_eq]
      ring

/-- A uniform random number selects each connected configuration with probability (multiplicity) /
    n(x). -/
theorem C53_uniform {X : Type} [DecidableEq X] (l : List X) (hl : l ≠ []) (y : X) :
    (volume {u : ℝ | (0 ≤ u ∧ u < 1) ∧ l[⌊u * (l.length : ℝ)⌋.toNat]? = some y}).toReal
      = (l.count y : ℝ) / l.length := by
  have hn : 0 < l.length := List.length_pos_iff.2 hl
  set A : Fin l.length → Set ℝ :=
    fun k => {u : ℝ | (0 ≤ u ∧ u < 1) ∧ ⌊u * (l.length : ℝ)⌋ = ((k : Nat) : Int)} with hA
  have hset : {u : ℝ | (0 ≤ u ∧ u < 1) ∧ l[⌊u * (l.length : ℝ)⌋.toNat]? = some y}
      = ⋃ k ∈ (univ.filter fun k : Fin l.length => l[k] = y), A k := by
    ext u
    simp only [Set.mem_ofPred_eq, Finset.mem_filter, Finset.mem_univ, true_and, Set.mem_iUnion, hA,
      exists_prop]
    constructor
    · rintro ⟨⟨h0, h1⟩, h⟩
      have hi := floor_index u l.length hn h0 h1
      rw [List.getElem?_eq_getElem hi, Option.some.injEq] at h
      refine ⟨⟨_, hi⟩, h, ⟨h0, h1⟩, ?_⟩
      have : 0 ≤ ⌊u * (l.length : ℝ)⌋ := Int.floor_nonneg.2 (by positivity)
      simp only [Int.toNat_of_nonneg this]
    · rintro ⟨k, hk, hu, hf⟩
      refine ⟨hu, ?_⟩
      rw [hf, Int.toNat_natCast, List.getElem?_eq_getElem k.2]
      exact congrArg some hk
  have hmeas : ∀ k, MeasurableSet (A k) := by
    intro k
    rw [hA]
    simp only
    rw [floor_set l.length k k.2]
    exact measurableSet_Ico
  have hdisj : Set.PairwiseDisjoint (↑(univ.filter fun k : Fin l.length => l[k] = y)) A := by
    intro a _ b _ hab
    rw [Function.onFun, Set.disjoint_left]
    rintro u ⟨_, h1⟩ ⟨_, h2⟩
    exact hab (Fin.ext (by rw [h1] at h2; exact_mod_cast h2))
  rw [hset, measure_biUnion_finset hdisj (fun k _ => hmeas k), ENNReal.toReal_sum]
  · have hk : ∀ k ∈ (univ.filter fun k : Fin l.length => l[k] = y),
        (volume (A k)).toReal = 1 / (l.length : ℝ) := fun k _ => C44_floor_uniform l.length k k.2
    rw [Finset.sum_congr rfl hk, Finset.sum_const, nsmul_eq_mul]
    have hc : (univ.filter fun k : Fin l.length => l[k] = y).card = l.count y := by
      rw [← count_fin l y l.length le_rfl]
      congr 1
      ext k
      simp
    rw [hc]; ring
  · intro k _
    refine ne_of_lt (lt_of_le_of_lt (measure_mono (?_ : A k ⊆ Set.Ico 0 1)) ?_)
    · exact fun u hu => hu.1
    · rw [Real.volume_Ico]; exact ENNReal.ofReal_lt_top

section
variable {X : Type} [DecidableEq X]

/-- probability of the draw `d < n(x)`. -/
noncomputable def hamW (conn : X → List X) (M : Nat) (x : X) (d : Fin M) : ℝ :=
  if (d : Nat) < (conn x).length then 1 / ((conn x).length : ℝ) else 0

/-- the connected configuration number `d`. -/
def hamProp (conn : X → List X) (M : Nat) (d : Fin M) (x : X) : X := ((conn x)[(d : Nat)]?).getD x

/-- the reported correction. -/
noncomputable def hamCorr (conn : X → List X) (M : Nat) (d : Fin M) (x : X) : Option ℝ :=
  some (Real.log ((conn x).length : ℝ) - Real.log ((conn (hamProp conn M d x)).length : ℝ))

theorem ham_proposal (conn : X → List X) (M : Nat) (x y : X) (hM : (conn x).length ≤ M) :
    proposal (hamW conn M) (hamProp conn M) x y
      = ((conn x).count y : ℝ) / ((conn x).length : ℝ) := by
  have h1 : ∀ d : Fin M, (if hamProp conn M d x = y then hamW conn M x d else 0)
      = if (conn x)[(d : Nat)]? = some y then 1 / ((conn x).length : ℝ) else 0 := by
    intro d
    simp only [hamProp, hamW]
    by_cases hd : (d : Nat) < (conn x).length
    · simp [hd]
    · have hn : (conn x)[(d : Nat)]? = none := List.getElem?_eq_none (by omega)
      simp [hd, hn]
  rw [proposal, Finset.sum_congr rfl fun d _ => h1 d, ← Finset.sum_filter, Finset.sum_const,
    count_fin _ _ _ hM, nsmul_eq_mul]
  ring

/-- The Hamiltonian rule meets the conditions of detailed balance whenever every pair of different
    configurations is connected equally often in both directions. -/
theorem C53_balanced (conn : X → List X) (M : Nat) (S : Finset X)
    (hM : ∀ x ∈ S, (conn x).length ≤ M) (hne : ∀ x ∈ S, conn x ≠ [])
    (hcl : ∀ x ∈ S, ∀ y ∈ conn x, y ∈ S)
    (hsym : ∀ x ∈ S, ∀ y ∈ S, x ≠ y → (conn x).count y = (conn y).count x) :
    Balanced S (hamW conn M) (hamProp conn M) (hamCorr conn M) := by
  have hpos : ∀ x ∈ S, (0 : ℝ) < ((conn x).length : ℝ) := fun x hx => by
    exact_mod_cast List.length_pos_iff.2 (hne x hx)
  refine ⟨fun x _ d => ?_, fun x hx => ?_, fun x hx d hd => ?_,
    fun x y => Real.log ((conn x).length : ℝ) - Real.log ((conn y).length : ℝ),
    fun x _ d _ => rfl, fun x hx y hy hxy => ?_⟩
  · simp only [hamW]; split
    · positivity
    · exact le_refl 0
  · simp only [hamW]
    rw [← Finset.sum_filter, Finset.sum_const, nsmul_eq_mul]
    have : (univ.filter fun d : Fin M => (d : Nat) < (conn x).length).card = (conn x).length := by
      rw [Fin.card_filter_val_lt]
      exact min_eq_right (hM x hx)
    rw [this]
    exact mul_one_div_cancel (hpos x hx).ne'
  · have : (d : Nat) < (conn x).length := by
      by_contra h
      exact hd (by simp [hamW, h])
    refine hcl x hx _ ?_
    simp [hamProp, this]
  · rw [ham_proposal conn M x y (hM x hx), ham_proposal conn M y x (hM y hy), Real.exp_sub,
      Real.exp_log (hpos x hx), Real.exp_log (hpos y hy), hsym x hx y hy hxy]
    have h1 := (hpos x hx).ne'
    have h2 := (hpos y hy).ne'
    field_simp

/-- Hence Hamiltonian sampling leaves `|psi|^pow` stationary for every wavefunction. -/
theorem C53_stationary (conn : X → List X) (M : Nat) (S : Finset X)
    (hM : ∀ x ∈ S, (conn x).length ≤ M) (hne : ∀ x ∈ S, conn x ≠ [])
    (hcl : ∀ x ∈ S, ∀ y ∈ conn x, y ∈ S)
    (hsym : ∀ x ∈ S, ∀ y ∈ S, x ≠ y → (conn x).count y = (conn y).count x)
    (pow : Nat) (logPsi : X → ℝ) (nSweeps : Nat) :
    let P := kpow S (kernel (hamW conn M) (step (fun x => pow * logPsi x) (hamProp conn M)
      (hamCorr conn M))) nSweeps
    Stochastic S P ∧ Reversible S (fun x => Real.exp (logPsi x) ^ pow) P ∧
      Stationary S (fun x => Real.exp (logPsi x) ^ pow) P := by
  have h := C44_stationary S _ _ _ (fun x => pow * logPsi x)
    (C53_balanced conn M S hM hne hcl hsym) nSweeps
  simpa only [Real.exp_nat_mul] using h

end

/-- connectivity of the refutation below. -/
def lopsided : Bool → List Bool := fun x => if x then [false] else [true, true, false]

/-- the correction reported for `lopsided`. -/
noncomputable def lopC (x y : Bool) : ℝ :=
  Real.log ((lopsided x).length : ℝ) - Real.log ((lopsided y).length : ℝ)

/-- When the operator lists a configuration more often in one direction (several terms with the same
    off-diagonal element), the chain does not sample `|psi|^2`, not even for a constant wavefunction. -/
theorem C118_multiplicity_refuted :
    ¬ ∀ (conn : Bool → List Bool), (∀ x, conn x ≠ []) →
      (∀ x y, y ∈ conn x ∧ x ≠ y ↔ x ∈ conn y ∧ x ≠ y) →
      Reversible ({true, false} : Finset Bool) (fun _ => Real.exp 0)
        (kernel (hamW conn 3) (step (fun _ => 0) (hamProp conn 3) (hamCorr conn 3))) := by
  intro h
  have h1 := h lopsided (by decide) (by decide) true (by simp) false (by simp)
  have hc : ∀ x ∈ ({true, false} : Finset Bool), ∀ d : Fin 3, hamW lopsided 3 x d ≠ 0 →
      (hamCorr lopsided 3 d x).getD 0
        = lopC x (hamProp lopsided 3 d x) := fun x _ d _ => rfl
  have ka := kernel_offdiag ({true, false} : Finset Bool) (hamW lopsided 3) (hamProp lopsided 3)
    (hamCorr lopsided 3) (fun _ => 0) lopC hc true false (by simp) (by decide)
  have kb := kernel_offdiag ({true, false} : Finset Bool) (hamW lopsided 3) (hamProp lopsided 3)
    (hamCorr lopsided 3) (fun _ => 0) lopC hc false true (by simp) (by decide)
  rw [ham_proposal lopsided 3 true false (by decide)] at ka
  rw [ham_proposal lopsided 3 false true (by decide)] at kb
  rw [ka, kb] at h1
  have l1 : (lopsided true).length = 1 := rfl
  have l2 : (lopsided false).length = 3 := rfl
  have c1 : (lopsided true).count false = 1 := rfl
  have c2 : (lopsided false).count true = 2 := rfl
  simp only [lopC, l1, l2, c1, c2] at h1
  have e1 : Real.exp (0 - 0 + (Real.log ((1 : Nat) : ℝ) - Real.log ((3 : Nat) : ℝ))) = 1 / 3 := by
    rw [show (0 : ℝ) - 0 + (Real.log ((1 : Nat) : ℝ) - Real.log ((3 : Nat) : ℝ))
      = -Real.log 3 by push_cast; rw [Real.log_one]; ring, Real.exp_neg, Real.exp_log (by norm_num)]
    norm_num
  have e2 : Real.exp (0 - 0 + (Real.log ((3 : Nat) : ℝ) - Real.log ((1 : Nat) : ℝ))) = 3 := by
    rw [show (0 : ℝ) - 0 + (Real.log ((3 : Nat) : ℝ) - Real.log ((1 : Nat) : ℝ))
      = Real.log 3 by push_cast; rw [Real.log_one]; ring, Real.exp_log (by norm_num)]
  rw [e1, e2] at h1
  norm_num at h1

/-- the hypotheses are met by a three-site flip connectivity including the diagonal element. -/
example : ∀ x y : Bool, x ≠ y →
    ((fun b : Bool => [b, !b]) x).count y = ((fun b : Bool => [b, !b]) y).count x := by decide

end Verif.Metro
