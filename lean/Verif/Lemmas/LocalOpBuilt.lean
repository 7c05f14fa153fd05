import Verif.Lemmas.LocalOpAlgebra
import Mathlib.Algebra.Star.Basic
import Mathlib.Algebra.Star.BigOperators

/-! Reachable operators: constructor calls with any cutoff, and arithmetic. -/

set_option linter.unusedSectionVars false

namespace Verif.LocalOp
open Verif.HilbertIndex Verif.Radix Verif.Hilbert

variable {K : Type} [CommRing K] [DecidableEq K] [Star K] {α : Type} [LinearOrder α] [Inhabited α]
  {N : Nat} {hi : Fin N → List α} {cut : Cutoff K}

/-- the tables are those of `_append_matrix` and the diagonal flag is up to date. -/
structure Fresh (cut : Cutoff K) (hi : Fin N → List α) (op : LOp K α N) : Prop where
  terms : ∀ t ∈ op.terms, t = appendMatrix cut hi t.mat t.acting
  flag : op.nonzeroDiag = hasNonzeroDiag cut op.terms op.constant
  herm : op.isHerm = true → ∀ t ∈ op.terms, matIsHerm t.mat = true

theorem mergeTerm_fresh (m : Mat K) (act : List (Fin N)) (ts ts' : List (Term K α N))
    (h : mergeTerm cut hi m act ts = some ts') (hf : ∀ t ∈ ts, t = appendMatrix cut hi t.mat t.acting) :
    (∀ t ∈ ts', t = appendMatrix cut hi t.mat t.acting)
    ∧ ∀ t ∈ ts', ∃ t0 ∈ ts, t.acting = t0.acting ∧ t.mat.n = t0.mat.n := by
  induction ts generalizing ts' with
  | nil => simp [mergeTerm] at h
  | cons t ts ih =>
    rw [mergeTerm] at h
    by_cases ha : t.acting = act
    · rw [if_pos ha] at h
      have h' := Option.some.inj h
      subst h'
      constructor
      · intro u hu
        rcases List.mem_cons.1 hu with rfl | hu
        · rfl
        · exact hf u (List.mem_cons_of_mem _ hu)
      · intro u hu
        rcases List.mem_cons.1 hu with rfl | hu
        · exact ⟨t, List.mem_cons_self, rfl, rfl⟩
        · exact ⟨u, List.mem_cons_of_mem _ hu, rfl, rfl⟩
    · rw [if_neg ha, Option.map_eq_some_iff] at h
      obtain ⟨us, hus, rfl⟩ := h
      obtain ⟨i1, i2⟩ := ih us hus fun t h => hf t (List.mem_cons_of_mem _ h)
      constructor
      · intro u hu
        rcases List.mem_cons.1 hu with rfl | hu
        · exact hf _ List.mem_cons_self
        · exact i1 u hu
      · intro u hu
        rcases List.mem_cons.1 hu with rfl | hu
        · exact ⟨_, List.mem_cons_self, rfl, rfl⟩
        · obtain ⟨t0, ht0, h⟩ := i2 u hu
          exact ⟨t0, List.mem_cons_of_mem _ ht0, h⟩

theorem addOperator_fresh (op op' : LOp K α N) (m : Mat K) (act : List (Fin N)) (hne : act ≠ [])
    (h : addOperator cut hi op m act = .ok op') (hf : Fresh cut hi op) (hsh : Shape hi op) :
    Fresh cut hi op' ∧ Shape hi op' := by
  unfold addOperator at h
  by_cases hn : ¬ act.Nodup
  · rw [if_pos hn] at h; cases h
  rw [if_neg hn] at h
  rw [not_not] at hn
  by_cases hsm : allSmall cut m = true
  · rw [if_pos hsm] at h
    cases h
    exact ⟨hf, hsh⟩
  rw [if_neg hsm] at h
  rcases hre : reorder hi m act with e | ⟨m', a'⟩
  · rw [hre] at h; cases h
  rw [hre] at h
  simp only at h
  have ha' : a' = act.insertionSort (· ≤ ·) := by
    unfold reorder at hre
    by_cases hsort : act.insertionSort (· ≤ ·) = act
    · simp only [hsort, if_true] at hre
      cases hre; exact hsort.symm
    · simp only [hsort, if_false] at hre
      split at hre
      · cases hre; rfl
      · cases hre
  have hne' : a' ≠ [] := by
    intro h
    rw [ha'] at h
    have := (List.perm_insertionSort (· ≤ ·) act).length_eq
    rw [h] at this
    exact hne (List.length_eq_zero_iff.1 this.symm)
  have hso : a'.Pairwise (· < ·) := ha' ▸ sort_strict act hn
  unfold addSorted at h
  rcases hmg : mergeTerm cut hi m' a' op.terms with _ | ts
  · rw [hmg] at h
    simp only at h
    by_cases hd : m'.n ≠ (dims hi a').prod
    · rw [if_pos hd] at h; cases h
    rw [if_neg hd] at h
    rw [not_not] at hd
    cases h
    refine ⟨⟨?_, rfl, ?_⟩, ⟨?_, ?_, ?_⟩⟩
    · intro t ht
      rcases List.mem_append.1 ht with ht | ht
      · exact hf.terms t ht
      · rw [List.mem_singleton.1 ht]; rfl
    · intro hh t ht
      exact List.all_eq_true.1 hh t ht
    · intro t ht
      rcases List.mem_append.1 ht with ht | ht
      · exact hsh.sorted t ht
      · rw [List.mem_singleton.1 ht]; exact hso
    · intro t ht
      rcases List.mem_append.1 ht with ht | ht
      · exact hsh.nonempty t ht
      · rw [List.mem_singleton.1 ht]; exact hne'
    · intro t ht
      rcases List.mem_append.1 ht with ht | ht
      · exact hsh.dim t ht
      · rw [List.mem_singleton.1 ht]; exact hd
  · rw [hmg] at h
    simp only at h
    cases h
    obtain ⟨h1, h2⟩ := mergeTerm_fresh m' a' op.terms ts hmg hf.terms
    refine ⟨⟨h1, rfl, ?_⟩, ⟨?_, ?_, ?_⟩⟩
    · intro hh t ht
      exact List.all_eq_true.1 hh t ht
    · intro t ht
      obtain ⟨t0, ht0, e, _⟩ := h2 t ht
      rw [e]; exact hsh.sorted t0 ht0
    · intro t ht
      obtain ⟨t0, ht0, e, _⟩ := h2 t ht
      rw [e]; exact hsh.nonempty t0 ht0
    · intro t ht
      obtain ⟨t0, ht0, e, e'⟩ := h2 t ht
      rw [e, e']; exact hsh.dim t0 ht0

theorem addAll_fresh (ops : List (Mat K × List (Fin N))) (op op' : LOp K α N)
    (h : addAll cut hi op ops = .ok op') (hf : Fresh cut hi op) (hsh : Shape hi op) :
    Fresh cut hi op' ∧ Shape hi op' := by
  induction ops generalizing op with
  | nil => rw [addAll] at h; cases h; exact ⟨hf, hsh⟩
  | cons p ops ih =>
    obtain ⟨m, act⟩ := p
    rw [addAll] at h
    by_cases he : act = []
    · rw [if_pos he] at h; exact ih op h hf hsh
    · rw [if_neg he] at h
      rcases ha : addOperator cut hi op m act with e | o
      · rw [ha] at h; cases h
      · rw [ha] at h
        obtain ⟨i1, i2⟩ := addOperator_fresh op o m act he ha hf hsh
        exact ih o h i1 i2

theorem mk_fresh (c : K) (ops : List (Mat K × List (Fin N))) (op : LOp K α N)
    (h : mk cut hi c ops = .ok op) : Fresh cut hi op ∧ Shape hi op := by
  unfold mk at h
  split at h
  · refine addAll_fresh ops _ op h ⟨by simp [zeroOp], ?_, by simp [zeroOp]⟩
      ⟨by simp [zeroOp], by simp [zeroOp], by simp [zeroOp]⟩
    simp [zeroOp, hasNonzeroDiag]
  · cases h

/-- every matrix element and the constant are zero or above the cutoff. -/
structure Resolved (cut : Cutoff K) (op : LOp K α N) : Prop where
  off : ∀ t ∈ op.terms, ∀ i < t.mat.n, ∀ j < t.mat.n, i ≠ j → cut.gt (t.mat.f i j) = false →
    t.mat.f i j = 0
  diag : ∀ t ∈ op.terms, ∀ i < t.mat.n, cut.ge (t.mat.f i i) = false → t.mat.f i i = 0
  const : cut.ge op.constant = false → op.constant = 0

theorem OpOK_of_fresh (op : LOp K α N) (hf : Fresh cut hi op) (hsh : Shape hi op)
    (hr : Resolved cut op) : OpOK hi op where
  terms := by
    intro t ht
    have e := hf.terms t ht
    refine ⟨(hsh.sorted t ht).imp fun h => ne_of_lt h, hsh.dim t ht, ?_, ?_⟩
    · intro i _; rw [e]; rfl
    · intro i hi'
      refine ⟨(List.range t.mat.n).filter fun j => i != j && cut.gt (t.mat.f i j),
        List.nodup_range.filter _, ?_, ?_, ?_⟩
      · intro j hj
        rw [List.mem_filter, List.mem_range] at hj
        have := hj.2
        simp only [Bool.and_eq_true, bne_iff_ne] at this
        exact ⟨hj.1, fun h => this.1 h.symm⟩
      · intro j hj hji hjn
        apply hr.off t ht i hi' j hj (Ne.symm hji)
        by_contra hc
        apply hjn
        rw [List.mem_filter, List.mem_range]
        refine ⟨hj, ?_⟩
        simp only [Bool.and_eq_true, bne_iff_ne]
        exact ⟨fun h => hji h.symm, (Bool.not_eq_false _).mp hc⟩
      · conv_lhs => rw [e]
        rfl
  nodiag := by
    intro h
    rw [hf.flag] at h
    unfold hasNonzeroDiag at h
    rw [Bool.or_eq_false_iff] at h
    refine ⟨hr.const h.2, ?_⟩
    intro t ht i hi'
    have h1 := h.1
    rw [List.any_eq_false] at h1
    have h2 := h1 t ht
    rw [Bool.not_eq_true, List.any_eq_false] at h2
    have h3 := h2 i (List.mem_range.2 hi')
    have e : t.diag i = t.mat.f i i := by rw [hf.terms t ht]; rfl
    rw [e] at h3 ⊢
    exact hr.diag t ht i hi' (by simpa using h3)

/-- Operators a program can obtain: constructor, copies, sums, scalings, products (on spaces with
    equal local dimensions), transposes and conjugates. -/
inductive Built (cut : Cutoff K) (hi : Fin N → List α) : LOp K α N → Prop
  | mk {c ops op} : ArgsOK hi ops → mk cut hi c ops = .ok op → Built cut hi op
  | copy {a r} : Built cut hi a → copy cut hi a = .ok r → Built cut hi r
  | iadd {a b r} : Built cut hi a → Built cut hi b → iadd cut hi a b = .ok r → Built cut hi r
  | add {a b r} : Built cut hi a → Built cut hi b → add cut hi a b = .ok r → Built cut hi r
  | sub {a b r} : Built cut hi a → Built cut hi b → sub cut hi a b = .ok r → Built cut hi r
  | addConst {a c} : Built cut hi a → Built cut hi (addConst cut a c)
  | addScalar {a c r} : Built cut hi a → addScalar cut hi a c = .ok r → Built cut hi r
  | imulScalar {a z} : Built cut hi a → Built cut hi (imulScalar cut a z)
  | mulScalar {a z r} : Built cut hi a → mulScalar cut hi a z = .ok r → Built cut hi r
  | matmul {a b r} : Uniform hi → Built cut hi a → Built cut hi b → opMatmul cut hi a b = .ok r →
      Built cut hi r
  | imatmul {a b r} : Uniform hi → Built cut hi a → Built cut hi b → imatmul cut hi a b = .ok r →
      Built cut hi r
  | transpose {a r} : Built cut hi a → transposeOp cut hi a = .ok r → Built cut hi r
  | conj {a r} : Built cut hi a → conjOp cut hi a = .ok r → Built cut hi r

theorem argsOK_map (op : LOp K α N) (h : Shape hi op) (g : Mat K → Mat K) (hg : ∀ m, (g m).n = m.n) :
    ArgsOK hi (op.terms.map fun t => (g t.mat, t.acting)) := by
  intro p hp
  rw [List.mem_map] at hp
  obtain ⟨t, ht, rfl⟩ := hp
  exact ⟨(h.sorted t ht).imp fun h => ne_of_lt h, h.nonempty t ht, by rw [hg]; exact h.dim t ht,
    Or.inl (h.sorted t ht)⟩

theorem ok_inj {A : Type} {x : Except Err A} {a b : A} (h : x = .ok a) (h' : x = .ok b) : a = b := by
  rw [h] at h'; cases h'; rfl

theorem Built.good (hid : Ideal cut) (hs : SortedSpace hi) {op : LOp K α N} (h : Built cut hi op) :
    Good hi op := by
  induction h with
  | mk ha h =>
    obtain ⟨o, h1, h2, _⟩ := mk_ok hid hs _ _ ha
    exact ok_inj h1 h ▸ h2
  | copy _ h ih =>
    obtain ⟨o, h1, h2, _⟩ := copy_ok hid hs _ ih
    exact ok_inj h1 h ▸ h2
  | iadd _ _ h ih1 ih2 =>
    obtain ⟨o, h1, h2, _⟩ := iadd_ok hid _ _ ih1 ih2
    exact ok_inj h1 h ▸ h2
  | add _ _ h ih1 ih2 =>
    obtain ⟨o, h1, h2, _⟩ := add_ok hid hs _ _ ih1 ih2
    exact ok_inj h1 h ▸ h2
  | sub _ _ h ih1 ih2 =>
    obtain ⟨o, h1, h2, _⟩ := sub_ok hid hs _ _ ih1 ih2
    exact ok_inj h1 h ▸ h2
  | addConst _ ih => exact addConst_good hid _ ih _
  | addScalar _ h ih =>
    obtain ⟨o, h1, h2, _⟩ := addScalar_ok hid hs _ ih _
    exact ok_inj h1 h ▸ h2
  | imulScalar _ ih => exact imulScalar_good hid _ ih _
  | mulScalar _ h ih =>
    obtain ⟨o, h1, h2, _⟩ := mulScalar_ok hid hs _ ih _
    exact ok_inj h1 h ▸ h2
  | matmul hu _ _ h ih1 ih2 =>
    obtain ⟨o, h1, h2, _⟩ := opMatmul_ok hid hs hu _ _ ih1 ih2
    exact ok_inj h1 h ▸ h2
  | imatmul hu _ _ h ih1 ih2 =>
    obtain ⟨o, h1, h2, _⟩ := imatmul_ok hid hs hu _ _ ih1 ih2
    exact ok_inj h1 h ▸ h2
  | transpose _ h ih =>
    obtain ⟨o, h1, h2, _⟩ := mk_ok hid hs _ _
      (argsOK_map _ ih.shape (fun m => ⟨m.n, fun i j => m.f j i⟩) fun _ => rfl)
    exact ok_inj h1 h ▸ h2
  | conj _ h ih =>
    obtain ⟨o, h1, h2, _⟩ := mk_ok hid hs _ _
      (argsOK_map _ ih.shape (fun m => ⟨m.n, fun i j => star (m.f i j)⟩) fun _ => rfl)
    exact ok_inj h1 h ▸ h2

theorem agree_comm (S : List (Fin N)) (x x' : Fin N → α) :
    (∀ s, s ∉ S → x s = x' s) ↔ (∀ s, s ∉ S → x' s = x s) :=
  ⟨fun h s hs => (h s hs).symm, fun h s hs => (h s hs).symm⟩

theorem transposeOp_ok (hid : Ideal cut) (hs : SortedSpace hi) (a : LOp K α N) (ha : Good hi a) :
    ∃ r, transposeOp cut hi a = .ok r ∧ Good hi r ∧ ∀ x x', Valid hi x → Valid hi x' →
      matrixOf hi r x x' = matrixOf hi a x' x := by
  obtain ⟨r, h1, h2, h3, h4⟩ := mk_ok hid hs a.constant _
      (argsOK_map a ha.shape (fun m => ⟨m.n, fun i j => m.f j i⟩) fun _ => rfl)
  refine ⟨r, h1, h2, fun x x' hx hx' => ?_⟩
  rw [h4 x x' hx hx', matrixOfList, matrixOf, List.map_map]
  congr 1
  · by_cases h : x = x'
    · rw [if_pos h, if_pos h.symm]
    · rw [if_neg h, if_neg fun e => h e.symm]
  · congr 1
    apply List.map_congr_left
    intro t _
    show embed hi (fun i j => t.mat.f j i) t.acting x x' = embed hi t.mat.f t.acting x' x
    unfold embed
    by_cases h : ∀ s, s ∉ t.acting → x s = x' s
    · rw [if_pos h, if_pos ((agree_comm _ _ _).1 h)]
    · rw [if_neg h, if_neg fun h' => h ((agree_comm _ _ _).2 h')]

end Verif.LocalOp

namespace Verif.LocalOp
open Verif.Hilbert
variable {K : Type} [CommRing K] [DecidableEq K] [StarRing K] {α : Type} [LinearOrder α] [Inhabited α]
  {N : Nat} {hi : Fin N → List α} {cut : Cutoff K}

theorem star_list_sum (l : List K) : star l.sum = (l.map star).sum := by
  induction l with
  | nil => simp
  | cons a l ih => simp [ih]

theorem conjOp_ok (hid : Ideal cut) (hs : SortedSpace hi) (a : LOp K α N) (ha : Good hi a) :
    ∃ r, conjOp cut hi a = .ok r ∧ Good hi r ∧ ∀ x x', Valid hi x → Valid hi x' →
      matrixOf hi r x x' = star (matrixOf hi a x x') := by
  obtain ⟨r, h1, h2, h3, h4⟩ := mk_ok hid hs (star a.constant) _
      (argsOK_map a ha.shape (fun m => ⟨m.n, fun i j => star (m.f i j)⟩) fun _ => rfl)
  refine ⟨r, h1, h2, fun x x' hx hx' => ?_⟩
  rw [h4 x x' hx hx', matrixOfList, matrixOf, List.map_map, star_add, star_list_sum, List.map_map]
  congr 1
  · split <;> simp
  · congr 1
    apply List.map_congr_left
    intro t _
    show embed hi (fun i j => star (t.mat.f i j)) t.acting x x' = star (embed hi t.mat.f t.acting x x')
    unfold embed
    split <;> simp

/-- all stored matrices hermitian. -/
def HermOK (op : LOp K α N) : Prop := op.isHerm = true → ∀ t ∈ op.terms, matIsHerm t.mat = true

theorem addOperator_herm (op op' : LOp K α N) (m : Mat K) (act : List (Fin N))
    (h : addOperator cut hi op m act = .ok op') (hf : HermOK op) : HermOK op' := by
  unfold addOperator at h
  split at h
  · cases h
  split at h
  · cases h; exact hf
  rcases hre : reorder hi m act with e | ⟨m', a'⟩
  · rw [hre] at h; cases h
  rw [hre] at h
  simp only at h
  unfold addSorted at h
  rcases hmg : mergeTerm cut hi m' a' op.terms with _ | ts
  · rw [hmg] at h
    simp only at h
    split at h
    · cases h
    · cases h
      intro hh t ht
      exact List.all_eq_true.1 hh t ht
  · rw [hmg] at h
    simp only at h
    cases h
    intro hh t ht
    exact List.all_eq_true.1 hh t ht

theorem iaddTerms_herm (ops : List (Mat K × List (Fin N))) (op op' : LOp K α N)
    (h : iaddTerms cut hi op ops = .ok op') (hf : HermOK op) : HermOK op' := by
  induction ops generalizing op with
  | nil => rw [iaddTerms] at h; cases h; exact hf
  | cons p ops ih =>
    obtain ⟨m, act⟩ := p
    rw [iaddTerms] at h
    rcases ha : addOperator cut hi op m act with e | o
    · rw [ha] at h; cases h
    · rw [ha] at h
      exact ih o h (addOperator_herm op o m act ha hf)

theorem mk_herm (c : K) (ops : List (Mat K × List (Fin N))) (op : LOp K α N)
    (h : mk cut hi c ops = .ok op) : HermOK op := (mk_fresh c ops op h).1.herm

theorem iadd_herm (a b r : LOp K α N) (h : iadd cut hi a b = .ok r) (ha : HermOK a) : HermOK r := by
  unfold iadd at h
  rcases hit : iaddTerms cut hi a (opList b) with e | o
  · rw [hit] at h; cases h
  · rw [hit] at h
    cases h
    have := iaddTerms_herm _ _ _ hit ha
    exact fun hh t ht => this hh t ht

theorem add_herm (a b r : LOp K α N) (h : add cut hi a b = .ok r) : HermOK r := by
  unfold add at h
  rcases hc : copy cut hi a with e | o
  · rw [hc] at h; cases h
  · rw [hc] at h
    exact iadd_herm o b r h (mk_herm _ _ _ hc)

theorem imulScalar_herm (a : LOp K α N) (z : K) (hz : star z = z) (ha : HermOK a) :
    HermOK (imulScalar cut a z) := by
  intro hh t ht
  simp only [imulScalar, List.mem_map] at ht
  obtain ⟨t0, ht0, rfl⟩ := ht
  have h0 := ha hh t0 ht0
  unfold matIsHerm at h0 ⊢
  rw [List.all_eq_true] at h0 ⊢
  intro i hi'
  have h1 := List.all_eq_true.1 (h0 i hi')
  rw [List.all_eq_true]
  intro j hj
  have h2 := h1 j hj
  rw [decide_eq_true_eq] at h2 ⊢
  simp only [scaleTerm]
  rw [h2, star_mul, hz, mul_comm]

theorem opMatmul_herm (a b r : LOp K α N) (h : opMatmul cut hi a b = .ok r)
    (hb : star b.constant = b.constant) : HermOK r := by
  unfold opMatmul at h
  rcases hc : copy cut hi a with e | a'
  · rw [hc] at h; cases h
  rw [hc] at h
  have ha' : HermOK a' := mk_herm _ _ _ hc
  simp only [bind, Except.bind] at h
  unfold imatmul at h
  rcases hap : allProducts hi a' (opList b) with e | tot
  · rw [hap] at h; cases h
  rw [hap] at h
  simp only [bind, Except.bind] at h
  rcases hm : mk cut hi 0 tot with e | prod
  · rw [hm] at h; cases h
  rw [hm] at h
  simp only at h
  unfold combineProduct at h
  rcases hs1 : productStage1 cut hi a' b prod with e | s
  · rw [hs1] at h; cases h
  rw [hs1] at h
  simp only [bind, Except.bind] at h
  have hS : HermOK s := by
    unfold productStage1 at hs1
    split at hs1
    · rcases hi1 : iadd cut hi (imulScalar cut a' b.constant) prod with e | s1
      · rw [hi1] at hs1; cases hs1
      · rw [hi1] at hs1
        cases hs1
        have := iadd_herm _ _ _ hi1 (imulScalar_herm a' b.constant hb ha')
        exact fun hh t ht => this hh t ht
    · cases hs1
      exact mk_herm _ _ _ hm
  rcases hs2 : productStage2 cut hi a'.constant b s with e | s'
  · rw [hs2] at h; cases h
  rw [hs2] at h
  have hS' : HermOK s' := by
    unfold productStage2 at hs2
    split at hs2
    · rcases hms : mulScalar cut hi b a'.constant with e | o
      · rw [hms] at hs2; cases hs2
      · rw [hms] at hs2
        exact iadd_herm _ _ _ hs2 hS
    · cases hs2; exact hS
  cases h
  exact fun hh t ht => hS' hh t ht

theorem herm_matrix (op : LOp K α N) (hsh : Shape hi op) (hh : ∀ t ∈ op.terms, matIsHerm t.mat = true)
    (hc : star op.constant = op.constant) (x x' : Fin N → α) (hx : Valid hi x) (hx' : Valid hi x') :
    matrixOf hi op x x' = star (matrixOf hi op x' x) := by
  unfold matrixOf
  rw [star_add, star_list_sum, List.map_map]
  congr 1
  · by_cases h : x = x'
    · rw [if_pos h, if_pos h.symm, hc]
    · rw [if_neg h, if_neg fun e => h e.symm, star_zero]
  · congr 1
    apply List.map_congr_left
    intro t ht
    show embed hi t.mat.f t.acting x x' = star (embed hi t.mat.f t.acting x' x)
    have h0 := hh t ht
    unfold matIsHerm at h0
    rw [List.all_eq_true] at h0
    have h1 := h0 (lexIdx hi t.acting x)
      (by rw [List.mem_range, hsh.dim t ht]; exact lexIdx_lt x hx _)
    rw [List.all_eq_true] at h1
    have h2 := h1 (lexIdx hi t.acting x')
      (by rw [List.mem_range, hsh.dim t ht]; exact lexIdx_lt x' hx' _)
    rw [decide_eq_true_eq] at h2
    unfold embed
    by_cases h : ∀ s, s ∉ t.acting → x s = x' s
    · rw [if_pos h, if_pos ((agree_comm _ _ _).1 h), h2]
    · rw [if_neg h, if_neg fun h' => h ((agree_comm _ _ _).2 h'), star_zero]

end Verif.LocalOp
