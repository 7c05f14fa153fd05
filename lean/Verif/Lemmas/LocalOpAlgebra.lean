import Verif.Lemmas.LocalOpEmbed

/-! Construction and arithmetic of `LocalOperator`: what matrix the results represent. -/

set_option linter.unusedSectionVars false

namespace Verif.LocalOp
open Verif.HilbertIndex Verif.Radix Verif.Hilbert

variable {K : Type} [CommRing K] [DecidableEq K] [Star K] {α : Type} [LinearOrder α] [Inhabited α]
  {N : Nat} {hi : Fin N → List α} {cut : Cutoff K}

/-- the cutoff only discards zeros (exact arithmetic; true e.g. for integer matrix elements). -/
structure Ideal (cut : Cutoff K) : Prop where
  gt : ∀ z, cut.gt z = false → z = 0
  ge : ∀ z, cut.ge z = false → z = 0

/-- supports are strictly increasing, non-empty, and matrices have the dimension of the support. -/
structure Shape (hi : Fin N → List α) (op : LOp K α N) : Prop where
  sorted : ∀ t ∈ op.terms, t.acting.Pairwise (· < ·)
  nonempty : ∀ t ∈ op.terms, t.acting ≠ []
  dim : ∀ t ∈ op.terms, t.mat.n = (dims hi t.acting).prod

theorem Faithful_append (hid : ∀ z, cut.gt z = false → z = 0) (m : Mat K) (act : List (Fin N))
    (hn : act.Nodup) (hm : m.n = (dims hi act).prod) : Faithful hi (appendMatrix cut hi m act) where
  nodup := hn
  dim := hm
  diag := fun _ _ => rfl
  conn := fun i _ => by
    refine ⟨(List.range m.n).filter fun j => i != j && cut.gt (m.f i j),
      List.nodup_range.filter _, ?_, ?_, rfl⟩
    · intro j hj
      rw [List.mem_filter, List.mem_range] at hj
      refine ⟨hj.1, ?_⟩
      have := hj.2
      simp only [Bool.and_eq_true, bne_iff_ne] at this
      exact fun h => this.1 h.symm
    · intro j hj hji hjn
      apply hid
      by_contra hc
      apply hjn
      rw [List.mem_filter, List.mem_range]
      refine ⟨hj, ?_⟩
      simp only [Bool.and_eq_true, bne_iff_ne]
      exact ⟨fun h => hji h.symm, (Bool.not_eq_false _).mp hc⟩

def termSum (hi : Fin N → List α) (ts : List (Term K α N)) (x x' : Fin N → α) : K :=
  (ts.map fun t => embed hi t.mat.f t.acting x x').sum

theorem embed_addBlock (a b : Mat K) (S : List (Fin N)) (ha : a.n = (dims hi S).prod)
    (hb : b.n = (dims hi S).prod) (x x' : Fin N → α) (hx : Valid hi x) (hx' : Valid hi x') :
    embed hi (addBlock a b).f S x x' = embed hi a.f S x x' + embed hi b.f S x x' := by
  have h1 := lexIdx_lt x hx S
  have h2 := lexIdx_lt x' hx' S
  unfold embed addBlock
  split
  · simp only [ha, hb, min_self, h1, h2, and_self, if_true]
  · simp

/-- everything `_add_operator` does to the list of terms. -/
theorem mergeTerm_some (m : Mat K) (act : List (Fin N)) (hm : m.n = (dims hi act).prod)
    (ts ts' : List (Term K α N)) (h : mergeTerm cut hi m act ts = some ts')
    (hd : ∀ t ∈ ts, t.mat.n = (dims hi t.acting).prod) :
    (∀ x x', Valid hi x → Valid hi x' →
      termSum hi ts' x x' = termSum hi ts x x' + embed hi m.f act x x')
    ∧ (∀ t ∈ ts', t ∈ ts ∨ ∃ m', t = appendMatrix cut hi m' act ∧ m'.n = m.n)
    ∧ (∀ t ∈ ts', ∃ t0 ∈ ts, t.acting = t0.acting ∧ t.mat.n = t0.mat.n) := by
  induction ts generalizing ts' with
  | nil => simp [mergeTerm] at h
  | cons t ts ih =>
    rw [mergeTerm] at h
    by_cases ha : t.acting = act
    · rw [if_pos ha] at h
      have h' := Option.some.inj h
      subst h'
      have ht := hd t List.mem_cons_self
      refine ⟨?_, ?_, ?_⟩
      · intro x x' hx hx'
        simp only [termSum, List.map_cons, List.sum_cons, appendMatrix]
        subst ha
        rw [embed_addBlock t.mat m t.acting ht hm x x' hx hx']
        ring
      · intro u hu
        rcases List.mem_cons.1 hu with rfl | hu
        · right
          refine ⟨addBlock t.mat m, by rw [ha], ?_⟩
          subst ha
          rw [hm]; exact ht
        · exact Or.inl (List.mem_cons_of_mem _ hu)
      · intro u hu
        rcases List.mem_cons.1 hu with rfl | hu
        · exact ⟨t, List.mem_cons_self, rfl, rfl⟩
        · exact ⟨u, List.mem_cons_of_mem _ hu, rfl, rfl⟩
    · rw [if_neg ha] at h
      rw [Option.map_eq_some_iff] at h
      obtain ⟨us, hus, rfl⟩ := h
      obtain ⟨i1, i2, i3⟩ := ih us hus (fun t h => hd t (List.mem_cons_of_mem _ h))
      refine ⟨?_, ?_, ?_⟩
      · intro x x' hx hx'
        have := i1 x x' hx hx'
        simp only [termSum, List.map_cons, List.sum_cons] at this ⊢
        rw [this]; ring
      · intro u hu
        rcases List.mem_cons.1 hu with rfl | hu
        · exact Or.inl List.mem_cons_self
        · rcases i2 u hu with h | h
          · exact Or.inl (List.mem_cons_of_mem _ h)
          · exact Or.inr h
      · intro u hu
        rcases List.mem_cons.1 hu with rfl | hu
        · exact ⟨_, List.mem_cons_self, rfl, rfl⟩
        · obtain ⟨t0, ht0, h⟩ := i3 u hu
          exact ⟨t0, List.mem_cons_of_mem _ ht0, h⟩

theorem refresh_nodiag (hid : ∀ z, cut.ge z = false → z = 0) (c : K) (ts : List (Term K α N)) :
    hasNonzeroDiag cut ts c = false →
      c = 0 ∧ ∀ t ∈ ts, ∀ i < t.mat.n, t.diag i = 0 := by
  intro h
  unfold hasNonzeroDiag at h
  rw [Bool.or_eq_false_iff] at h
  refine ⟨hid _ h.2, ?_⟩
  intro t ht i hi'
  have h1 := h.1
  rw [List.any_eq_false] at h1
  have h2 := h1 t ht
  rw [Bool.not_eq_true, List.any_eq_false] at h2
  have h3 := h2 i (List.mem_range.2 hi')
  exact hid _ (by simpa using h3)

theorem allSmall_embed (hid : ∀ z, cut.ge z = false → z = 0) (m : Mat K) (act : List (Fin N))
    (hm : m.n = (dims hi act).prod) (h : allSmall cut m = true) (x x' : Fin N → α)
    (hx : Valid hi x) (hx' : Valid hi x') : embed hi m.f act x x' = 0 := by
  unfold embed
  split
  · unfold allSmall at h
    rw [List.all_eq_true] at h
    have h1 := h (lexIdx hi act x) (by rw [List.mem_range, hm]; exact lexIdx_lt x hx act)
    rw [List.all_eq_true] at h1
    have h2 := h1 (lexIdx hi act x') (by rw [List.mem_range, hm]; exact lexIdx_lt x' hx' act)
    exact hid _ (by simpa using h2)
  · rfl

/-- what the operations promise about an operator. -/
structure Good (hi : Fin N → List α) (op : LOp K α N) : Prop where
  shape : Shape hi op
  ok : OpOK hi op

theorem good_zero (hid : Ideal cut) (c : K) : Good hi (zeroOp cut c : LOp K α N) where
  shape := ⟨by simp [zeroOp], by simp [zeroOp], by simp [zeroOp]⟩
  ok := ⟨by simp [zeroOp], by
    intro h
    exact ⟨hid.ge _ (by simpa [zeroOp] using h), by simp [zeroOp]⟩⟩

theorem addSorted_ok (hid : Ideal cut) (op : LOp K α N) (hop : Good hi op) (m : Mat K)
    (act : List (Fin N)) (hs : act.Pairwise (· < ·)) (hne : act ≠ [])
    (hm : m.n = (dims hi act).prod) :
    ∃ op', addSorted cut hi op m act = .ok op' ∧ Good hi op' ∧ op'.constant = op.constant
      ∧ ∀ x x', Valid hi x → Valid hi x' →
        matrixOf hi op' x x' = matrixOf hi op x x' + embed hi m.f act x x' := by
  have hnd : act.Nodup := hs.imp fun h => ne_of_lt h
  unfold addSorted
  rcases hmg : mergeTerm cut hi m act op.terms with _ | ts
  · simp only
    rw [if_neg (by simpa using hm)]
    refine ⟨_, rfl, ⟨⟨?_, ?_, ?_⟩, ⟨?_, ?_⟩⟩, rfl, ?_⟩
    · intro t ht
      rcases List.mem_append.1 ht with ht | ht
      · exact hop.shape.sorted t ht
      · rw [List.mem_singleton.1 ht]; exact hs
    · intro t ht
      rcases List.mem_append.1 ht with ht | ht
      · exact hop.shape.nonempty t ht
      · rw [List.mem_singleton.1 ht]; exact hne
    · intro t ht
      rcases List.mem_append.1 ht with ht | ht
      · exact hop.shape.dim t ht
      · rw [List.mem_singleton.1 ht]; exact hm
    · intro t ht
      rcases List.mem_append.1 ht with ht | ht
      · exact hop.ok.terms t ht
      · rw [List.mem_singleton.1 ht]; exact Faithful_append hid.gt m act hnd hm
    · exact refresh_nodiag hid.ge _ _
    · intro x x' _ _
      simp only [matrixOf, refresh, List.map_append, List.sum_append, List.map_cons, List.map_nil,
        List.sum_cons, List.sum_nil, appendMatrix]
      ring
  · simp only
    obtain ⟨h1, h2, h3⟩ := mergeTerm_some m act hm op.terms ts hmg hop.shape.dim
    refine ⟨_, rfl, ⟨⟨?_, ?_, ?_⟩, ⟨?_, ?_⟩⟩, rfl, ?_⟩
    · intro t ht
      obtain ⟨t0, ht0, e, _⟩ := h3 t ht
      rw [e]; exact hop.shape.sorted t0 ht0
    · intro t ht
      obtain ⟨t0, ht0, e, _⟩ := h3 t ht
      rw [e]; exact hop.shape.nonempty t0 ht0
    · intro t ht
      obtain ⟨t0, ht0, e, e'⟩ := h3 t ht
      rw [e, e']; exact hop.shape.dim t0 ht0
    · intro t ht
      rcases h2 t ht with h | ⟨m', rfl, hm'⟩
      · exact hop.ok.terms t h
      · exact Faithful_append hid.gt m' act hnd (hm'.trans hm)
    · exact refresh_nodiag hid.ge _ _
    · intro x x' hx hx'
      have := h1 x x' hx hx'
      simp only [termSum] at this
      simp only [matrixOf, refresh]
      rw [this]; ring

/-- `_add_operator` adds the embedded matrix. -/
theorem addOperator_ok (hid : Ideal cut) (op : LOp K α N) (hop : Good hi op) (m : Mat K)
    (act : List (Fin N)) (hn : act.Nodup) (hne : act ≠ []) (hm : m.n = (dims hi act).prod)
    (hr : Reorderable hi act) :
    ∃ op', addOperator cut hi op m act = .ok op' ∧ Good hi op' ∧ op'.constant = op.constant
      ∧ ∀ x x', Valid hi x → Valid hi x' →
        matrixOf hi op' x x' = matrixOf hi op x x' + embed hi m.f act x x' := by
  unfold addOperator
  rw [if_neg (not_not.2 hn)]
  by_cases hsm : allSmall cut m = true
  · rw [if_pos hsm]
    refine ⟨op, rfl, hop, rfl, fun x x' hx hx' => ?_⟩
    rw [allSmall_embed hid.ge m act hm hsm x x' hx hx', add_zero]
  · rw [if_neg hsm]
    obtain ⟨m', h1, h2, h3⟩ := reorder_ok m act hn hm hr
    rw [h1]
    have hne' : act.insertionSort (· ≤ ·) ≠ [] := by
      intro h
      have := (List.perm_insertionSort (· ≤ ·) act).length_eq
      rw [h] at this
      exact hne (List.length_eq_zero_iff.1 this.symm)
    obtain ⟨op', g1, g2, g3, g4⟩ := addSorted_ok hid op hop m' _ (sort_strict act hn) hne' h2
    refine ⟨op', g1, g2, g3, fun x x' hx hx' => ?_⟩
    rw [g4 x x' hx hx', h3 x x' hx hx']

/-- admissible constructor arguments. -/
def ArgsOK (hi : Fin N → List α) (ops : List (Mat K × List (Fin N))) : Prop :=
  ∀ p ∈ ops, p.2.Nodup ∧ p.2 ≠ [] ∧ p.1.n = (dims hi p.2).prod ∧ Reorderable hi p.2

theorem addAll_ok (hid : Ideal cut) (ops : List (Mat K × List (Fin N))) (ha : ArgsOK hi ops)
    (op : LOp K α N) (hop : Good hi op) :
    ∃ op', addAll cut hi op ops = .ok op' ∧ Good hi op' ∧ op'.constant = op.constant
      ∧ ∀ x x', Valid hi x → Valid hi x' → matrixOf hi op' x x'
        = matrixOf hi op x x' + (ops.map fun p => embed hi p.1.f p.2 x x').sum := by
  induction ops generalizing op with
  | nil => exact ⟨op, rfl, hop, rfl, by simp⟩
  | cons p ops ih =>
    obtain ⟨m, act⟩ := p
    obtain ⟨a1, a2, a3, a4⟩ := ha (m, act) List.mem_cons_self
    obtain ⟨o1, h1, h2, h3, h4⟩ := addOperator_ok hid op hop m act a1 a2 a3 a4
    obtain ⟨o2, g1, g2, g3, g4⟩ := ih (fun p hp => ha p (List.mem_cons_of_mem _ hp)) o1 h2
    refine ⟨o2, ?_, g2, g3.trans h3, ?_⟩
    · rw [addAll, if_neg a2, h1]; exact g1
    · intro x x' hx hx'
      rw [g4 x x' hx hx', h4 x x' hx hx', List.map_cons, List.sum_cons]; ring

theorem iaddTerms_eq_addAll (op : LOp K α N) (ops : List (Mat K × List (Fin N)))
    (h : ∀ p ∈ ops, p.2 ≠ []) : iaddTerms cut hi op ops = addAll cut hi op ops := by
  induction ops generalizing op with
  | nil => rfl
  | cons p ops ih =>
    obtain ⟨m, act⟩ := p
    rw [iaddTerms, addAll, if_neg (h (m, act) List.mem_cons_self)]
    rcases addOperator cut hi op m act with e | o
    · rfl
    · exact ih o fun p hp => h p (List.mem_cons_of_mem _ hp)

theorem sorted_check (hs : SortedSpace hi) :
    ((List.finRange N).all fun s => isSortedList (hi s)) = true := by
  rw [List.all_eq_true]
  intro s _
  have h := hs s
  generalize hi s = l at h
  unfold isSortedList
  induction l with
  | nil => rfl
  | cons a l ih =>
    cases l with
    | nil => rfl
    | cons b l =>
      rw [List.pairwise_cons] at h
      have := ih h.2
      simp only [List.tail_cons, List.zip_cons_cons, List.all_cons, Bool.and_eq_true,
        decide_eq_true_eq] at this ⊢
      exact ⟨le_of_lt (h.1 b List.mem_cons_self), this⟩

theorem mk_ok (hid : Ideal cut) (hs : SortedSpace hi) (c : K) (ops : List (Mat K × List (Fin N)))
    (ha : ArgsOK hi ops) :
    ∃ op, mk cut hi c ops = .ok op ∧ Good hi op ∧ op.constant = c
      ∧ ∀ x x', Valid hi x → Valid hi x' → matrixOf hi op x x' = matrixOfList hi c ops x x' := by
  unfold mk
  rw [if_pos (sorted_check hs)]
  obtain ⟨op, h1, h2, h3, h4⟩ := addAll_ok hid ops ha (zeroOp cut c) (good_zero hid c)
  refine ⟨op, h1, h2, h3, fun x x' hx hx' => ?_⟩
  rw [h4 x x' hx hx']
  simp [matrixOf, matrixOfList, zeroOp]

theorem argsOK_opList (op : LOp K α N) (h : Shape hi op) : ArgsOK hi (opList op) := by
  intro p hp
  unfold opList at hp
  rw [List.mem_map] at hp
  obtain ⟨t, ht, rfl⟩ := hp
  exact ⟨(h.sorted t ht).imp fun h => ne_of_lt h, h.nonempty t ht, h.dim t ht,
    Or.inl (h.sorted t ht)⟩

theorem matrixOf_eq_list (op : LOp K α N) (x x' : Fin N → α) :
    matrixOf hi op x x' = matrixOfList hi op.constant (opList op) x x' := by
  simp [matrixOf, matrixOfList, opList, Function.comp_def]

theorem copy_ok (hid : Ideal cut) (hs : SortedSpace hi) (op : LOp K α N) (h : Good hi op) :
    ∃ op', copy cut hi op = .ok op' ∧ Good hi op' ∧ op'.constant = op.constant
      ∧ ∀ x x', Valid hi x → Valid hi x' → matrixOf hi op' x x' = matrixOf hi op x x' := by
  obtain ⟨op', h1, h2, h3, h4⟩ := mk_ok hid hs op.constant (opList op) (argsOK_opList op h.shape)
  refine ⟨op', h1, h2, h3, fun x x' hx hx' => ?_⟩
  rw [h4 x x' hx hx', matrixOf_eq_list]

theorem addConst_good (hid : Ideal cut) (op : LOp K α N) (h : Good hi op) (c : K) :
    Good hi (addConst cut op c) where
  shape := ⟨h.shape.sorted, h.shape.nonempty, h.shape.dim⟩
  ok := ⟨h.ok.terms, refresh_nodiag hid.ge _ _⟩

theorem matrixOf_addConst (op : LOp K α N) (c : K) (x x' : Fin N → α) :
    matrixOf hi (addConst cut op c) x x' = matrixOf hi op x x' + if x = x' then c else 0 := by
  unfold matrixOf addConst
  by_cases h : x = x'
  · simp only [h, if_true]; ring
  · simp [h]

theorem iadd_ok (hid : Ideal cut) (a b : LOp K α N) (ha : Good hi a) (hb : Good hi b) :
    ∃ r, iadd cut hi a b = .ok r ∧ Good hi r ∧ r.constant = a.constant + b.constant
      ∧ ∀ x x', Valid hi x → Valid hi x' →
        matrixOf hi r x x' = matrixOf hi a x x' + matrixOf hi b x x' := by
  have hargs := argsOK_opList b hb.shape
  obtain ⟨o, h1, h2, h3, h4⟩ := addAll_ok hid (opList b) hargs a ha
  rw [← iaddTerms_eq_addAll a (opList b) (fun p hp => (hargs p hp).2.1)] at h1
  refine ⟨addConst cut o b.constant, ?_, addConst_good hid o h2 _, ?_, fun x x' hx hx' => ?_⟩
  · unfold iadd; rw [h1]; rfl
  · simp [addConst, h3]
  · rw [matrixOf_addConst, h4 x x' hx hx', matrixOf_eq_list b, matrixOfList]; ring

theorem add_ok (hid : Ideal cut) (hs : SortedSpace hi) (a b : LOp K α N) (ha : Good hi a)
    (hb : Good hi b) :
    ∃ r, add cut hi a b = .ok r ∧ Good hi r
      ∧ ∀ x x', Valid hi x → Valid hi x' →
        matrixOf hi r x x' = matrixOf hi a x x' + matrixOf hi b x x' := by
  obtain ⟨a', h1, h2, h3, h4⟩ := copy_ok hid hs a ha
  obtain ⟨r, g1, g2, g3, g4⟩ := iadd_ok hid a' b h2 hb
  refine ⟨r, ?_, g2, fun x x' hx hx' => ?_⟩
  · unfold add; rw [h1]; exact g1
  · rw [g4 x x' hx hx', h4 x x' hx hx']

theorem scaleTerm_faithful (z : K) (t : Term K α N) (h : Faithful hi t) :
    Faithful hi (scaleTerm z t) where
  nodup := h.nodup
  dim := h.dim
  diag := fun i hi' => by simp [scaleTerm, h.diag i hi']
  conn := fun i hi' => by
    obtain ⟨js, j1, j2, j3, j4⟩ := h.conn i hi'
    refine ⟨js, j1, j2, fun j hj hji hjn => ?_, ?_⟩
    · simp [scaleTerm, j3 j hj hji hjn]
    · simp [scaleTerm, j4]

theorem imulScalar_good (hid : Ideal cut) (op : LOp K α N) (h : Good hi op) (z : K) :
    Good hi (imulScalar cut op z) where
  shape := by
    refine ⟨?_, ?_, ?_⟩ <;>
    · intro t ht
      simp only [imulScalar, List.mem_map] at ht
      obtain ⟨t0, ht0, rfl⟩ := ht
      first
        | exact h.shape.sorted t0 ht0
        | exact h.shape.nonempty t0 ht0
        | exact h.shape.dim t0 ht0
  ok := ⟨by
    intro t ht
    simp only [imulScalar, List.mem_map] at ht
    obtain ⟨t0, ht0, rfl⟩ := ht
    exact scaleTerm_faithful z t0 (h.ok.terms t0 ht0), refresh_nodiag hid.ge _ _⟩

theorem matrixOf_imulScalar (op : LOp K α N) (z : K) (x x' : Fin N → α) :
    matrixOf hi (imulScalar cut op z) x x' = z * matrixOf hi op x x' := by
  unfold matrixOf imulScalar
  rw [mul_add, mul_ite, mul_zero, List.map_map]
  congr 1
  · rw [mul_comm]
  · induction op.terms with
    | nil => simp
    | cons t ts ih =>
      rw [List.map_cons, List.sum_cons, ih, List.map_cons, List.sum_cons, mul_add]
      congr 1
      show embed hi (fun i j => t.mat.f i j * z) t.acting x x' = z * embed hi t.mat.f t.acting x x'
      unfold embed
      by_cases h : ∀ s, s ∉ t.acting → x s = x' s
      · rw [if_pos h, if_pos h, mul_comm]
      · rw [if_neg h, if_neg h, mul_zero]

theorem mulScalar_ok (hid : Ideal cut) (hs : SortedSpace hi) (a : LOp K α N) (ha : Good hi a)
    (z : K) :
    ∃ r, mulScalar cut hi a z = .ok r ∧ Good hi r ∧ r.constant = a.constant * z
      ∧ ∀ x x', Valid hi x → Valid hi x' → matrixOf hi r x x' = z * matrixOf hi a x x' := by
  obtain ⟨a', h1, h2, h3, h4⟩ := copy_ok hid hs a ha
  refine ⟨imulScalar cut a' z, ?_, imulScalar_good hid a' h2 z, ?_, fun x x' hx hx' => ?_⟩
  · unfold mulScalar; rw [h1]; rfl
  · simp [imulScalar, h3]
  · rw [matrixOf_imulScalar, h4 x x' hx hx']

theorem addScalar_ok (hid : Ideal cut) (hs : SortedSpace hi) (a : LOp K α N) (ha : Good hi a)
    (c : K) :
    ∃ r, addScalar cut hi a c = .ok r ∧ Good hi r
      ∧ ∀ x x', Valid hi x → Valid hi x' →
        matrixOf hi r x x' = matrixOf hi a x x' + if x = x' then c else 0 := by
  obtain ⟨a', h1, h2, h3, h4⟩ := copy_ok hid hs a ha
  refine ⟨addConst cut a' c, ?_, addConst_good hid a' h2 c, fun x x' hx hx' => ?_⟩
  · unfold addScalar; rw [h1]; rfl
  · rw [matrixOf_addConst, h4 x x' hx hx']

theorem sub_ok (hid : Ideal cut) (hs : SortedSpace hi) (a b : LOp K α N) (ha : Good hi a)
    (hb : Good hi b) :
    ∃ r, sub cut hi a b = .ok r ∧ Good hi r
      ∧ ∀ x x', Valid hi x → Valid hi x' →
        matrixOf hi r x x' = matrixOf hi a x x' - matrixOf hi b x x' := by
  obtain ⟨b', h1, h2, h3, h4⟩ := mulScalar_ok hid hs b hb (-1)
  obtain ⟨r, g1, g2, g4⟩ := add_ok hid hs a b' ha h2
  refine ⟨r, ?_, g2, fun x x' hx hx' => ?_⟩
  · unfold sub; rw [h1]; exact g1
  · rw [g4 x x' hx hx', h4 x x' hx hx']; ring

/-! ### products -/

/-- all sites have the same local dimension. -/
def Uniform (hi : Fin N → List α) : Prop := ∃ d, ∀ s, (hi s).length = d

theorem Uniform.reorderable (h : Uniform hi) (act : List (Fin N)) : Reorderable hi act := by
  obtain ⟨d, hd⟩ := h
  exact Or.inr ⟨d, fun s _ => hd s⟩

theorem extend_ok (amin : Nat) (base sites : List (Fin N)) (hsn : sites.Nodup)
    (p : Mat K × List (Fin N)) (hp : p.2.Nodup) (hpn : p.1.n = (dims hi p.2).prod)
    (hb : ∀ s ∈ sites, s ∈ p.2 ↔ s ∈ base) :
    (extend hi amin base sites p).2.Nodup
    ∧ (extend hi amin base sites p).1.n = (dims hi (extend hi amin base sites p).2).prod
    ∧ (∀ s, s ∈ (extend hi amin base sites p).2 ↔ s ∈ p.2 ∨ (s ∈ sites ∧ s ∉ base))
    ∧ ∀ x x', Valid hi x → Valid hi x' →
      embed hi (extend hi amin base sites p).1.f (extend hi amin base sites p).2 x x'
        = embed hi p.1.f p.2 x x' := by
  induction sites generalizing p with
  | nil => exact ⟨hp, hpn, by simp [extend], fun _ _ _ _ => rfl⟩
  | cons site rest ih =>
    rw [List.nodup_cons] at hsn
    have hb0 := hb site List.mem_cons_self
    by_cases h1 : site ∈ base
    · have e : extend hi amin base (site :: rest) p = extend hi amin base rest p := by
        rw [extend, if_pos h1]
      rw [e]
      obtain ⟨i1, i2, i3, i4⟩ := ih hsn.2 p hp hpn fun s hs => hb s (List.mem_cons_of_mem _ hs)
      refine ⟨i1, i2, fun s => ?_, i4⟩
      rw [i3, List.mem_cons]
      constructor
      · rintro (h | h)
        · exact Or.inl h
        · exact Or.inr ⟨Or.inr h.1, h.2⟩
      · rintro (h | ⟨h | h, h'⟩)
        · exact Or.inl h
        · subst h; exact absurd h1 h'
        · exact Or.inr ⟨h, h'⟩
    · have hns : site ∉ p.2 := fun h => h1 (hb0.1 h)
      by_cases h2 : site.val < amin
      · have e : extend hi amin base (site :: rest) p
            = extend hi amin base rest (kron (eye (hi site).length) p.1, site :: p.2) := by
          rw [extend, if_neg h1, if_pos h2]
        rw [e]
        obtain ⟨i1, i2, i3, i4⟩ := ih hsn.2 (kron (eye (hi site).length) p.1, site :: p.2)
          (List.nodup_cons.2 ⟨hns, hp⟩) (by simp [kron, eye, hpn, dims])
          (fun s hs => by
            have hne : s ≠ site := fun h => hsn.1 (h ▸ hs)
            simp only [List.mem_cons, hne, false_or]
            exact hb s (List.mem_cons_of_mem _ hs))
        refine ⟨i1, i2, fun s => ?_, fun x x' hx hx' => ?_⟩
        · rw [i3]
          simp only [List.mem_cons]
          constructor
          · rintro ((h | h) | h)
            · subst h; exact Or.inr ⟨Or.inl rfl, h1⟩
            · exact Or.inl h
            · exact Or.inr ⟨Or.inr h.1, h.2⟩
          · rintro (h | ⟨h | h, h'⟩)
            · exact Or.inl (Or.inr h)
            · exact Or.inl (Or.inl h)
            · exact Or.inr ⟨h, h'⟩
        · rw [i4 x x' hx hx']
          exact embed_kron_eye_left p.2 site hns p.1 hpn x x' hx hx'
      · have e : extend hi amin base (site :: rest) p
            = extend hi amin base rest (kron p.1 (eye (hi site).length), p.2 ++ [site]) := by
          rw [extend, if_neg h1, if_neg h2]
        rw [e]
        obtain ⟨i1, i2, i3, i4⟩ := ih hsn.2 (kron p.1 (eye (hi site).length), p.2 ++ [site])
          (by
            rw [List.nodup_append]
            refine ⟨hp, List.nodup_singleton _, ?_⟩
            intro a ha b hb'
            rw [List.mem_singleton] at hb'
            subst hb'
            exact fun h => hns (h ▸ ha))
          (by simp [kron, eye, hpn, dims])
          (fun s hs => by
            have hne : s ≠ site := fun h => hsn.1 (h ▸ hs)
            simp only [List.mem_append, List.mem_singleton, hne, or_false]
            exact hb s (List.mem_cons_of_mem _ hs))
        refine ⟨i1, i2, fun s => ?_, fun x x' hx hx' => ?_⟩
        · rw [i3]
          simp only [List.mem_cons, List.mem_append, List.not_mem_nil, or_false]
          constructor
          · rintro ((h | h) | h)
            · exact Or.inl h
            · subst h; exact Or.inr ⟨Or.inl rfl, h1⟩
            · exact Or.inr ⟨Or.inr h.1, h.2⟩
          · rintro (h | ⟨h | h, h'⟩)
            · exact Or.inl (Or.inl h)
            · exact Or.inl (Or.inr h)
            · exact Or.inr ⟨h, h'⟩
        · rw [i4 x x' hx hx']
          exact embed_kron_eye_right p.2 site hns p.1 x x' hx hx'

theorem matProd_congr {a a' b b' : (Fin N → α) → (Fin N → α) → K}
    (ha : ∀ x y, Valid hi x → Valid hi y → a x y = a' x y)
    (hb : ∀ x y, Valid hi x → Valid hi y → b x y = b' x y) (x x' : Fin N → α)
    (hx : Valid hi x) (hx' : Valid hi x') : matProd hi a b x x' = matProd hi a' b' x x' := by
  unfold matProd
  refine Finset.sum_congr rfl fun y hy => ?_
  rw [mem_basis] at hy
  rw [ha x y hx hy, hb y x' hy hx']

/-- one pair of local terms. -/
theorem multiplyPair_ok (hs : SortedSpace hi) (hu : Uniform hi) (mi m : Mat K)
    (acti act : List (Fin N)) (hi1 : acti.Pairwise (· < ·)) (h1 : act.Pairwise (· < ·))
    (hi2 : acti ≠ []) (hmi : mi.n = (dims hi acti).prod) (hm : m.n = (dims hi act).prod) :
    ∃ p, multiplyPair hi mi acti m act = .ok p ∧ ArgsOK hi [p]
      ∧ ∀ x x', Valid hi x → Valid hi x' →
        embed hi p.1.f p.2 x x' = matProd hi (embed hi mi.f acti) (embed hi m.f act) x x' := by
  have ndi : acti.Nodup := hi1.imp fun h => ne_of_lt h
  have nd : act.Nodup := h1.imp fun h => ne_of_lt h
  unfold multiplyPair
  by_cases he : act = acti
  · rw [if_pos he]
    subst he
    refine ⟨_, rfl, ?_, fun x x' hx _ => ?_⟩
    · intro p hp
      rw [List.mem_singleton] at hp
      subst hp
      exact ⟨ndi, hi2, hmi, hu.reorderable _⟩
    · exact (matProd_embed_same hs act nd mi m hmi x x' hx).symm
  · rw [if_neg he]
    by_cases hdis : (acti.all fun s => !decide (s ∈ act)) = true
    · rw [if_pos hdis]
      have hd : ∀ s ∈ acti, s ∉ act := by
        intro s hs'
        have := List.all_eq_true.1 hdis s hs'
        simpa using this
      refine ⟨_, rfl, ?_, fun x x' hx hx' => ?_⟩
      · intro p hp
        rw [List.mem_singleton] at hp
        subst hp
        refine ⟨?_, by simp [hi2], by simp [kron, hmi, hm, dims_append], hu.reorderable _⟩
        rw [List.nodup_append]
        exact ⟨ndi, nd, fun a ha b hb h => hd a ha (h ▸ hb)⟩
      · exact (matProd_embed_disjoint acti act hd mi m hm x x' hx hx').symm
    · rw [if_neg hdis]
      obtain ⟨p1, p2, p3, p4⟩ := extend_ok (hi := hi) (minSite act) act acti ndi (m, act) nd hm
        (fun s _ => Iff.rfl)
      obtain ⟨q1, q2, q3, q4⟩ := extend_ok (hi := hi) (minSite acti) acti act nd (mi, acti) ndi hmi
        (fun s _ => Iff.rfl)
      simp only
      generalize extend hi (minSite act) act acti (m, act) = P at p1 p2 p3 p4
      generalize extend hi (minSite acti) acti act (mi, acti) = Q at q1 q2 q3 q4
      obtain ⟨mp, r1, r2, r3⟩ := reorder_ok P.1 P.2 p1 p2 (hu.reorderable _)
      obtain ⟨mq, s1, s2, s3⟩ := reorder_ok Q.1 Q.2 q1 q2 (hu.reorderable _)
      have hperm : P.2.Perm Q.2 := by
        rw [List.perm_ext_iff_of_nodup p1 q1]
        intro s
        rw [p3, q3]
        simp only
        by_cases ha : s ∈ act <;> by_cases hb : s ∈ acti <;> simp [ha, hb]
      have hsort : P.2.insertionSort (· ≤ ·) = Q.2.insertionSort (· ≤ ·) := by
        refine List.Perm.eq_of_pairwise (le := (· ≤ ·)) (fun a b _ _ h1 h2 => le_antisymm h1 h2)
          (List.pairwise_insertionSort _ _) (List.pairwise_insertionSort _ _) ?_
        exact (List.perm_insertionSort _ _).trans (hperm.trans (List.perm_insertionSort _ _).symm)
      rw [r1, s1]
      simp only [hsort, if_true]
      rw [hsort] at r2 r3
      have hQs := sort_strict Q.2 q1
      have hQn : (Q.2.insertionSort (· ≤ ·)).Nodup := hQs.imp fun h => ne_of_lt h
      have hQne : Q.2.insertionSort (· ≤ ·) ≠ [] := by
        intro h
        obtain ⟨s, hs'⟩ := List.exists_mem_of_ne_nil acti hi2
        have : s ∈ Q.2.insertionSort (· ≤ ·) :=
          (List.perm_insertionSort (· ≤ ·) Q.2).mem_iff.2 ((q3 s).2 (Or.inl hs'))
        rw [h] at this
        exact absurd this List.not_mem_nil
      refine ⟨_, rfl, ?_, fun x x' hx hx' => ?_⟩
      · intro p hp
        rw [List.mem_singleton] at hp
        subst hp
        exact ⟨hQn, hQne, s2, hu.reorderable _⟩
      · rw [← matProd_embed_same hs _ hQn mq mp s2 x x' hx]
        refine matProd_congr (fun x y hx hy => ?_) (fun x y hx hy => ?_) x x' hx hx'
        · rw [s3 x y hx hy, q4 x y hx hy]
        · rw [r3 x y hx hy, p4 x y hx hy]

theorem matProd_sum_left (ts : List (Term K α N)) (b : (Fin N → α) → (Fin N → α) → K)
    (x x' : Fin N → α) :
    matProd hi (fun x y => termSum hi ts x y) b x x'
      = (ts.map fun t => matProd hi (embed hi t.mat.f t.acting) b x x').sum := by
  unfold matProd termSum
  induction ts with
  | nil => simp
  | cons t ts ih =>
    simp only [List.map_cons, List.sum_cons]
    rw [← ih, ← Finset.sum_add_distrib]
    exact Finset.sum_congr rfl fun y _ => by ring

theorem mapM_except_ok {β γ : Type} (f : β → Except Err γ) (P : β → γ → Prop) (l : List β)
    (h : ∀ b ∈ l, ∃ c, f b = .ok c ∧ P b c) :
    ∃ cs, l.mapM f = .ok cs ∧ List.Forall₂ P l cs := by
  induction l with
  | nil => exact ⟨[], rfl, .nil⟩
  | cons b l ih =>
    obtain ⟨c, hc, hP⟩ := h b List.mem_cons_self
    obtain ⟨cs, hcs, hF⟩ := ih fun b hb => h b (List.mem_cons_of_mem _ hb)
    refine ⟨c :: cs, ?_, .cons hP hF⟩
    rw [List.mapM_cons, hc, hcs]; rfl

theorem multiplyOperator_ok (hs : SortedSpace hi) (hu : Uniform hi) (a : LOp K α N)
    (ha : Shape hi a) (m : Mat K) (act : List (Fin N)) (h1 : act.Pairwise (· < ·))
    (hm : m.n = (dims hi act).prod) :
    ∃ ps, multiplyOperator hi a m act = .ok ps ∧ ArgsOK hi ps
      ∧ ∀ x x', Valid hi x → Valid hi x' → (ps.map fun p => embed hi p.1.f p.2 x x').sum
        = matProd hi (fun x y => termSum hi a.terms x y) (embed hi m.f act) x x' := by
  unfold multiplyOperator
  obtain ⟨ps, h2, h3⟩ := mapM_except_ok (fun t : Term K α N => multiplyPair hi t.mat t.acting m act)
    (fun t p => ArgsOK hi [p] ∧ ∀ x x', Valid hi x → Valid hi x' →
        embed hi p.1.f p.2 x x' = matProd hi (embed hi t.mat.f t.acting) (embed hi m.f act) x x')
    a.terms (fun t ht => by
      obtain ⟨p, p1, p2, p3⟩ := multiplyPair_ok hs hu t.mat m t.acting act (ha.sorted t ht) h1
        (ha.nonempty t ht) (ha.dim t ht) hm
      exact ⟨p, p1, p2, p3⟩)
  refine ⟨ps, h2, ?_, fun x x' hx hx' => ?_⟩
  · clear h2 ha
    generalize a.terms = ts at h3
    induction h3 with
    | nil => intro p hp; simp at hp
    | @cons t p ts ps h _ ih =>
      intro q hq
      rcases List.mem_cons.1 hq with rfl | hq
      · exact h.1 _ List.mem_cons_self
      · exact ih q hq
  · rw [matProd_sum_left]
    clear h2 ha
    generalize a.terms = ts at h3
    induction h3 with
    | nil => rfl
    | @cons t p ts ps h _ ih =>
      rw [List.map_cons, List.sum_cons, ih, h.2 x x' hx hx', List.map_cons, List.sum_cons]

theorem matProd_add_right (a b c : (Fin N → α) → (Fin N → α) → K) (x x' : Fin N → α) :
    matProd hi a (fun x y => b x y + c x y) x x' = matProd hi a b x x' + matProd hi a c x x' := by
  unfold matProd
  rw [← Finset.sum_add_distrib]
  exact Finset.sum_congr rfl fun y _ => by ring

theorem matProd_add_left (a b c : (Fin N → α) → (Fin N → α) → K) (x x' : Fin N → α) :
    matProd hi (fun x y => a x y + b x y) c x x' = matProd hi a c x x' + matProd hi b c x x' := by
  unfold matProd
  rw [← Finset.sum_add_distrib]
  exact Finset.sum_congr rfl fun y _ => by ring

theorem matProd_diag_left (c : K) (b : (Fin N → α) → (Fin N → α) → K) (x x' : Fin N → α)
    (hx : Valid hi x) :
    matProd hi (fun x y => if x = y then c else 0) b x x' = c * b x x' := by
  unfold matProd
  rw [Finset.sum_eq_single x]
  · simp
  · intro y _ h; simp [Ne.symm h]
  · intro h; exact absurd ((mem_basis x).2 hx) h

theorem matProd_diag_right (c : K) (b : (Fin N → α) → (Fin N → α) → K) (x x' : Fin N → α)
    (hx' : Valid hi x') :
    matProd hi b (fun x y => if x = y then c else 0) x x' = c * b x x' := by
  unfold matProd
  rw [Finset.sum_eq_single x']
  · simp [mul_comm]
  · intro y _ h; simp [h]
  · intro h; exact absurd ((mem_basis x').2 hx') h

theorem allProducts_ok (hs : SortedSpace hi) (hu : Uniform hi) (a : LOp K α N) (ha : Shape hi a)
    (ops : List (Mat K × List (Fin N)))
    (ho : ∀ p ∈ ops, p.2.Pairwise (· < ·) ∧ p.1.n = (dims hi p.2).prod) :
    ∃ ps, allProducts hi a ops = .ok ps ∧ ArgsOK hi ps
      ∧ ∀ x x', Valid hi x → Valid hi x' → (ps.map fun p => embed hi p.1.f p.2 x x').sum
        = matProd hi (fun x y => termSum hi a.terms x y)
            (fun x y => (ops.map fun p => embed hi p.1.f p.2 x y).sum) x x' := by
  induction ops with
  | nil => exact ⟨[], rfl, fun p hp => by simp at hp, fun x x' _ _ => by simp [matProd]⟩
  | cons p ops ih =>
    obtain ⟨m, act⟩ := p
    have hp := ho (m, act) List.mem_cons_self
    obtain ⟨ps1, h1, h2, h3⟩ := multiplyOperator_ok hs hu a ha m act hp.1 hp.2
    obtain ⟨ps2, g1, g2, g3⟩ := ih fun p hp => ho p (List.mem_cons_of_mem _ hp)
    refine ⟨ps1 ++ ps2, ?_, ?_, fun x x' hx hx' => ?_⟩
    · rw [allProducts, h1, g1]; rfl
    · intro q hq
      rcases List.mem_append.1 hq with h | h
      · exact h2 q h
      · exact g2 q h
    · rw [List.map_append, List.sum_append, h3 x x' hx hx', g3 x x' hx hx', ← matProd_add_right]
      rfl

theorem combine_ok (hid : Ideal cut) (hs : SortedSpace hi) (a b p : LOp K α N) (ha : Good hi a)
    (hb : Good hi b) (hp : Good hi p) (hpc : p.constant = 0)
    (hprod : ∀ x x', Valid hi x → Valid hi x' → matrixOf hi p x x'
      = matProd hi (fun x y => termSum hi a.terms x y) (fun x y => termSum hi b.terms x y) x x') :
    ∃ r, combineProduct cut hi a b p = .ok r ∧ Good hi r
      ∧ ∀ x x', Valid hi x → Valid hi x' →
        matrixOf hi r x x' = matProd hi (matrixOf hi a) (matrixOf hi b) x x' := by
  have target : ∀ x x', Valid hi x → Valid hi x' →
      matProd hi (matrixOf hi a) (matrixOf hi b) x x'
        = (if x = x' then a.constant * b.constant else 0) + b.constant * termSum hi a.terms x x'
          + a.constant * termSum hi b.terms x x' + matrixOf hi p x x' := by
    intro x x' hx hx'
    rw [hprod x x' hx hx']
    have e1 : matrixOf hi a = fun x y => (if x = y then a.constant else 0) + termSum hi a.terms x y := rfl
    have e2 : matrixOf hi b = fun x y => (if x = y then b.constant else 0) + termSum hi b.terms x y := rfl
    rw [e1, e2, matProd_add_left, matProd_diag_left _ _ _ _ hx, matProd_add_right,
      matProd_diag_right _ _ _ _ hx']
    split <;> ring
  -- first stage: `s`
  have stage1 : ∃ s, productStage1 cut hi a b p = Except.ok s ∧ Shape hi s ∧ (∀ t ∈ s.terms, Faithful hi t)
      ∧ s.constant = 0
      ∧ ∀ x x', Valid hi x → Valid hi x' →
        matrixOf hi s x x' = b.constant * termSum hi a.terms x x' + matrixOf hi p x x' := by
    unfold productStage1
    rcases hg : cut.gt b.constant with _ | _
    · have h0 := hid.gt _ hg
      refine ⟨p, rfl, hp.shape, hp.ok.terms, hpc, fun x x' _ _ => ?_⟩
      rw [h0]; ring
    · obtain ⟨s1, k1, k2, k3, k4⟩ := iadd_ok hid (imulScalar cut a b.constant) p
        (imulScalar_good hid a ha _) hp
      refine ⟨{ s1 with constant := 0 }, ?_, ⟨k2.shape.sorted, k2.shape.nonempty, k2.shape.dim⟩,
        k2.ok.terms, rfl, fun x x' hx hx' => ?_⟩
      · simp only [if_true, k1]
      · have h := k4 x x' hx hx'
        rw [matrixOf_imulScalar] at h
        have e1 : matrixOf hi ({ s1 with constant := 0 } : LOp K α N) x x'
            = matrixOf hi s1 x x' - if x = x' then s1.constant else 0 := by
          simp only [matrixOf]; split <;> ring
        rw [e1, h, k3, hpc]
        have e2 : matrixOf hi a x x' = (if x = x' then a.constant else 0) + termSum hi a.terms x x' := rfl
        rw [e2]
        simp only [imulScalar]
        split <;> ring
  obtain ⟨s, s1, s2, s3, s4, s5⟩ := stage1
  -- for the second stage only the matrices of `s` matter; its flag is recomputed at the end
  have hsG : ∀ c, Good hi (addConst cut s c) := fun c =>
    ⟨⟨s2.sorted, s2.nonempty, s2.dim⟩, ⟨s3, refresh_nodiag hid.ge _ _⟩⟩
  unfold combineProduct productStage2
  rw [s1]
  simp only [bind, Except.bind, pure, Except.pure]
  rcases hg : cut.gt a.constant with _ | _
  · have h0 := hid.gt _ hg
    refine ⟨_, rfl, ⟨⟨s2.sorted, s2.nonempty, s2.dim⟩, ⟨s3, refresh_nodiag hid.ge _ _⟩⟩, ?_⟩
    intro x x' hx hx'
    rw [target x x' hx hx', h0]
    have e : matrixOf hi ({ s with nonzeroDiag := hasNonzeroDiag cut s.terms s.constant } : LOp K α N) x x'
        = matrixOf hi s x x' := rfl
    rw [e, s5 x x' hx hx']
    simp
  · obtain ⟨o, o1, o2, o3, o4⟩ := mulScalar_ok hid hs b hb a.constant
    -- adding to `s` only depends on its terms and constant
    have hargs := argsOK_opList o o2.shape
    obtain ⟨u, u1, u2, u3, u4⟩ := iadd_ok hid (addConst cut s 0) o (hsG 0) o2
    have key : ∀ (ops : List (Mat K × List (Fin N))) (s t : LOp K α N), s.terms = t.terms →
        s.constant = t.constant → ∀ r, iaddTerms cut hi s ops = .ok r →
        ∃ r', iaddTerms cut hi t ops = .ok r' ∧ r'.terms = r.terms ∧ r'.constant = r.constant := by
      intro ops
      induction ops with
      | nil =>
        intro s t h1 h2 r hr
        rw [iaddTerms] at hr
        cases hr
        exact ⟨t, rfl, h1.symm, h2.symm⟩
      | cons q ops ih =>
        intro s t h1 h2 r hr
        obtain ⟨m, act⟩ := q
        have hadd : ∀ s', addOperator cut hi s m act = .ok s' → ∃ t',
            addOperator cut hi t m act = .ok t' ∧ s'.terms = t'.terms ∧ s'.constant = t'.constant := by
          intro s' hs'
          unfold addOperator at hs' ⊢
          by_cases hn : ¬ act.Nodup
          · rw [if_pos hn] at hs'; cases hs'
          · rw [if_neg hn] at hs' ⊢
            by_cases hsm : allSmall cut m = true
            · rw [if_pos hsm] at hs' ⊢
              cases hs'
              exact ⟨t, rfl, h1, h2⟩
            · rw [if_neg hsm] at hs' ⊢
              rcases hre : reorder hi m act with e | ⟨m', a'⟩
              · rw [hre] at hs'; cases hs'
              · rw [hre] at hs'
                simp only at hs' ⊢
                unfold addSorted at hs' ⊢
                rw [h1, h2] at hs'
                exact ⟨s', hs', rfl, rfl⟩
        rw [iaddTerms] at hr
        rcases hao : addOperator cut hi s m act with e | s'
        · rw [hao] at hr; cases hr
        · rw [hao] at hr
          obtain ⟨t', ht', e1, e2⟩ := hadd s' hao
          obtain ⟨r', hr', e3⟩ := ih s' t' e1 e2 r hr
          refine ⟨r', ?_, e3⟩
          rw [iaddTerms, ht']; exact hr'
    have hiadd : ∃ w, iadd cut hi s o = .ok w ∧ w.terms = u.terms ∧ w.constant = u.constant
        := by
      unfold iadd at u1 ⊢
      rcases hit : iaddTerms cut hi (addConst cut s 0) (opList o) with e | r0
      · rw [hit] at u1; cases u1
      · rw [hit] at u1
        obtain ⟨r', hr', e1, e2⟩ := key (opList o) (addConst cut s 0) s rfl (by simp [addConst]) r0 hit
        rw [hr']
        refine ⟨_, rfl, ?_⟩
        cases u1
        simp [addConst, e1, e2]
    obtain ⟨w, w1, w2, w3⟩ := hiadd
    refine ⟨{ w with nonzeroDiag := hasNonzeroDiag cut w.terms w.constant }, ?_, ?_, ?_⟩
    · simp only [if_true, o1, w1]
    · refine ⟨⟨?_, ?_, ?_⟩, ⟨?_, refresh_nodiag hid.ge _ _⟩⟩
      · intro t ht; exact u2.shape.sorted t (w2 ▸ ht)
      · intro t ht; exact u2.shape.nonempty t (w2 ▸ ht)
      · intro t ht; exact u2.shape.dim t (w2 ▸ ht)
      · intro t ht; exact u2.ok.terms t (w2 ▸ ht)
    · intro x x' hx hx'
      have e : matrixOf hi ({ w with nonzeroDiag := hasNonzeroDiag cut w.terms w.constant } : LOp K α N) x x'
          = matrixOf hi u x x' := by simp only [matrixOf, w2, w3]
      rw [e, u4 x x' hx hx', matrixOf_addConst, s5 x x' hx hx', o4 x x' hx hx', target x x' hx hx']
      have e2 : matrixOf hi b x x' = (if x = x' then b.constant else 0) + termSum hi b.terms x x' := rfl
      rw [e2]
      split <;> ring

theorem imatmul_ok (hid : Ideal cut) (hs : SortedSpace hi) (hu : Uniform hi) (a b : LOp K α N)
    (ha : Good hi a) (hb : Good hi b) :
    ∃ r, imatmul cut hi a b = .ok r ∧ Good hi r
      ∧ ∀ x x', Valid hi x → Valid hi x' →
        matrixOf hi r x x' = matProd hi (matrixOf hi a) (matrixOf hi b) x x' := by
  obtain ⟨ps, h1, h2, h3⟩ := allProducts_ok hs hu a ha.shape (opList b) (by
    intro p hp
    unfold opList at hp
    rw [List.mem_map] at hp
    obtain ⟨t, ht, rfl⟩ := hp
    exact ⟨hb.shape.sorted t ht, hb.shape.dim t ht⟩)
  obtain ⟨p, p1, p2, p3, p4⟩ := mk_ok hid hs (0 : K) ps h2
  obtain ⟨r, r1, r2, r3⟩ := combine_ok hid hs a b p ha hb p2 p3 (by
    intro x x' hx hx'
    rw [p4 x x' hx hx', matrixOfList, h3 x x' hx hx']
    simp only [ite_self, zero_add]
    congr 1
    funext x y
    simp [termSum, opList, Function.comp_def])
  refine ⟨r, ?_, r2, r3⟩
  unfold imatmul
  rw [h1]
  simp only [bind, Except.bind, p1]
  exact r1

theorem opMatmul_ok (hid : Ideal cut) (hs : SortedSpace hi) (hu : Uniform hi) (a b : LOp K α N)
    (ha : Good hi a) (hb : Good hi b) :
    ∃ r, opMatmul cut hi a b = .ok r ∧ Good hi r
      ∧ ∀ x x', Valid hi x → Valid hi x' →
        matrixOf hi r x x' = matProd hi (matrixOf hi a) (matrixOf hi b) x x' := by
  obtain ⟨a', h1, h2, h3, h4⟩ := copy_ok hid hs a ha
  obtain ⟨r, r1, r2, r3⟩ := imatmul_ok hid hs hu a' b h2 hb
  refine ⟨r, ?_, r2, fun x x' hx hx' => ?_⟩
  · unfold opMatmul; rw [h1]; exact r1
  · rw [r3 x x' hx hx']
    exact matProd_congr (fun x y hx hy => h4 x y hx hy) (fun _ _ _ _ => rfl) x x' hx hx'

end Verif.LocalOp
