import Verif.Lemmas.CustomRule
import Verif.Props.Metropolis
import Verif.Model.MetropolisNumpy

/-! C140, C141: `CustomRuleNumpy` proposes moves by given matrices. -/

set_option linter.unusedSectionVars false

namespace Verif.Custom
open Verif.LocalOp Verif.Hilbert Verif.Markov Verif.Metro MeasureTheory

section
variable {α : Type} [LinearOrder α] [Inhabited α] {N : Nat} {hi : Fin N → List α}

/-! ### Specification -/

/-- a symmetric stochastic matrix of dimension `n`. -/
structure SymStochastic (n : Nat) (m : Nat → Nat → ℝ) : Prop where
  nonneg : ∀ i < n, ∀ j < n, 0 ≤ m i j
  row : ∀ i < n, ∑ j ∈ Finset.range n, m i j = 1
  symm : ∀ i < n, ∀ j < n, m i j = m j i

/-- transition matrix meant by the operators and the weights: apply operator `k` with probability
    `w_k / Σ w`. -/
noncomputable def moveMatrix (hi : Fin N → List α) (op : LOp ℝ α N) (w : List ℝ)
    (x y : Fin N → α) : ℝ :=
  (List.zipWith (fun (q : ℝ) (t : Term ℝ α N) => q / w.sum * embed hi t.mat.f t.acting x y) w op.terms).sum

/-- the weights meant by the argument `move_weights` (all ones by default). -/
def weightsOf (op : LOp ℝ α N) (weights : Option (List ℝ)) : List ℝ :=
  weights.getD (List.replicate op.terms.length 1)

theorem sum_range_map (n : Nat) (f : Nat → ℝ) :
    ((List.range n).map f).sum = ∑ i ∈ Finset.range n, f i := by
  rw [← List.sum_toFinset _ List.nodup_range, List.toFinset_range]

theorem checkMat_spec (m : Mat ℝ) (h : checkMat m = true) : SymStochastic m.n m.f := by
  simp only [checkMat, Bool.and_eq_true, List.all_eq_true, List.mem_range, decide_eq_true_eq] at h
  obtain ⟨⟨⟨h1, _⟩, h3⟩, h4⟩ := h
  exact ⟨h1, fun i hi => by rw [← sum_range_map]; exact h3 i hi, h4⟩

/-! ### construction -/

/-- what a successful construction establishes: every matrix is symmetric and stochastic, there is one
    non-negative weight for every operator, and the stored weights are the given ones divided by their
    sum. -/
theorem C140_construct (op : LOp ℝ α N) (weights : Option (List ℝ)) (wl : List ℝ)
    (h : mkRule op weights = .ok wl) :
    (∀ t ∈ op.terms, SymStochastic t.mat.n t.mat.f) ∧
    (weightsOf op weights).length = op.terms.length ∧ (∀ q ∈ weightsOf op weights, 0 ≤ q) ∧
    wl = (weightsOf op weights).map (· / (weightsOf op weights).sum) := by
  unfold mkRule at h
  by_cases hc : (op.terms.all fun t => checkMat t.mat) = true
  · rw [if_pos hc] at h
    have hm : ∀ t ∈ op.terms, SymStochastic t.mat.n t.mat.f := fun t ht =>
      checkMat_spec t.mat (List.all_eq_true.1 hc t ht)
    refine ⟨hm, ?_⟩
    cases weights with
    | none =>
      simp only [checkWeights, Except.ok.injEq] at h
      refine ⟨by simp [weightsOf], fun q hq => ?_, by rw [← h]; rfl⟩
      simp only [weightsOf, Option.getD_none] at hq
      rw [List.eq_of_mem_replicate hq]; exact zero_le_one
    | some w =>
      simp only [checkWeights] at h
      by_cases h1 : w.length ≠ op.terms.length
      · rw [if_pos h1] at h; cases h
      rw [if_neg h1] at h
      by_cases h2 : w = []
      · rw [if_pos h2] at h; cases h
      rw [if_neg h2] at h
      by_cases h3 : (w.any fun x => decide (x < 0)) = true
      · rw [if_pos h3] at h; cases h
      rw [if_neg h3] at h
      simp only [Except.ok.injEq] at h
      refine ⟨not_not.1 h1, fun q hq => ?_, h.symm⟩
      by_contra hn
      exact h3 (List.any_eq_true.2 ⟨q, hq, by simpa using hn⟩)
  · rw [if_neg hc] at h; cases h

/-- matrices that are not symmetric and stochastic, negative weights and a wrong number of weights are
    rejected. -/
theorem C140_reject (op : LOp ℝ α N) (weights : Option (List ℝ))
    (h : (∃ t ∈ op.terms, ¬ SymStochastic t.mat.n t.mat.f) ∨ (∃ q ∈ weightsOf op weights, q < 0)
      ∨ (weightsOf op weights).length ≠ op.terms.length) : ∃ e, mkRule op weights = .error e := by
  rcases hk : mkRule op weights with e | wl
  · exact ⟨e, rfl⟩
  · obtain ⟨h1, h2, h3, _⟩ := C140_construct op weights wl hk
    rcases h with ⟨t, ht, hn⟩ | ⟨q, hq, hn⟩ | hn
    · exact absurd (h1 t ht) hn
    · exact absurd (h3 q hq) (not_le.2 hn)
    · exact absurd h2 hn

/-- conversely nothing else is rejected: symmetric stochastic matrices and one non-negative weight for
    each of them (at least one operator). -/
theorem C140_accept (op : LOp ℝ α N) (weights : Option (List ℝ)) (h0 : op.terms ≠ [])
    (h1 : ∀ t ∈ op.terms, SymStochastic t.mat.n t.mat.f) (h2 : ∀ q ∈ weightsOf op weights, 0 ≤ q)
    (h3 : (weightsOf op weights).length = op.terms.length) : ∃ wl, mkRule op weights = .ok wl := by
  have hc : (op.terms.all fun t => checkMat t.mat) = true := by
    rw [List.all_eq_true]
    intro t ht
    obtain ⟨a, b, c⟩ := h1 t ht
    simp only [checkMat, Bool.and_eq_true, List.all_eq_true, List.mem_range, decide_eq_true_eq,
      sum_range_map]
    refine ⟨⟨⟨a, fun j hj => ?_⟩, b⟩, c⟩
    rw [← b j hj]
    exact Finset.sum_congr rfl fun i hi => c i (Finset.mem_range.1 hi) j hj
  unfold mkRule
  rw [if_pos hc]
  cases weights with
  | none => exact ⟨_, rfl⟩
  | some w =>
    simp only [weightsOf, Option.getD_some] at h2 h3
    have hw : ¬ w = [] := by rintro rfl; exact h0 (List.length_eq_zero_iff.1 h3.symm)
    have hn : ¬ (w.any fun x => decide (x < 0)) = true := by
      rw [List.any_eq_true]
      rintro ⟨q, hq, hx⟩
      exact absurd (of_decide_eq_true hx) (not_lt.2 (h2 q hq))
    simp only [checkWeights]
    rw [if_neg (not_not.2 h3), if_neg hw, if_neg hn]
    exact ⟨_, rfl⟩

/-! ### the operator is drawn by the weights -/

theorem normalized_sum (w : List ℝ) (h : 0 < w.sum) : (w.map (· / w.sum)).sum = 1 := by
  have : ∀ (l : List ℝ) (s : ℝ), (l.map (· / s)).sum = l.sum / s := by
    intro l s
    induction l with
    | nil => simp
    | cons a l ih => rw [List.map_cons, List.sum_cons, ih, List.sum_cons, add_div]
  rw [this, div_self h.ne']

theorem normalized_nonneg (w : List ℝ) (hw : ∀ q ∈ w, 0 ≤ q) :
    ∀ q ∈ w.map (· / w.sum), 0 ≤ q := by
  intro q hq
  obtain ⟨a, ha, rfl⟩ := List.mem_map.1 hq
  exact div_nonneg (hw a ha) (List.sum_nonneg hw)

/-- operator `k` is drawn with probability `w_k / Σ w`. -/
theorem C140_pick (w : List ℝ) (hw : ∀ q ∈ w, 0 ≤ q) (h : 0 < w.sum) (k : Nat) (hk : k < w.length) :
    volume {u : ℝ | (0 ≤ u ∧ u < 1) ∧ pickOp (w.map (· / w.sum)) u = k}
      = ENNReal.ofReal (w[k] / w.sum) := by
  have h1 := normalized_sum w h
  have h2 := normalized_nonneg w hw
  simp only [pickOp_eq _ h2 h1]
  have hk' : k < (w.map (· / w.sum)).length := by simpa using hk
  rw [Verif.AutoReg.choice_volume _ h2 (by rw [h1]; exact zero_lt_one) k hk', h1, div_one,
    List.getElem_map]

example := C140_pick [1, 3, 0] (by simp) (by norm_num) 1 (by decide)

/-! ### one operator -/

/-- the row of the kernel: non-negative, total one, and the elements at `y` add up to the matrix
    element. -/
theorem filteredRow_spec (hs : SortedSpace hi) (op : LOp ℝ α N) (hg : Good hi op)
    (hc : op.constant = 0) (i : Nat) (t : Term ℝ α N) (ht : op.terms[i]? = some t)
    (hm : SymStochastic t.mat.n t.mat.f) (x : Fin N → α) (hx : Valid hi x) :
    ∃ r, filteredRow hi op i x = .ok r ∧ r ≠ [] ∧ (∀ q ∈ r, 0 ≤ q.1) ∧ (r.map Prod.fst).sum = 1 ∧
      (∀ q ∈ r, Valid hi q.2) ∧
      ∀ y, Valid hi y → (r.map fun q => if q.2 = y then q.1 else 0).sum = embed hi t.mat.f t.acting x y := by
  have hmem : t ∈ op.terms := List.mem_of_getElem? ht
  have hf : Faithful hi t := hg.ok.terms t hmem
  have hlt := lexIdx_lt x hx t.acting
  have hlt' := hlt
  rw [← hf.dim] at hlt'
  obtain ⟨js, hj1, hj2, hj3, hj4⟩ := hf.conn _ hlt'
  refine ⟨_, by rw [filteredRow, ht], List.cons_ne_nil _ _, ?_, ?_, ?_, ?_⟩
  · intro q hq
    rw [xsN_eq hs x hx, hj4] at hq
    rcases List.mem_cons.1 hq with rfl | hq
    · simp only [hc, zero_add, hf.diag _ hlt']
      exact hm.nonneg _ hlt' _ hlt'
    · rw [List.map_map] at hq
      obtain ⟨j, hj, rfl⟩ := List.mem_map.1 hq
      exact hm.nonneg _ hlt' _ (hj2 j hj).1
  · rw [xsN_eq hs x hx, hj4, List.map_cons, List.sum_cons]
    simp only [List.map_map, hc, zero_add, hf.diag _ hlt']
    rw [← hm.row _ hlt']
    have hins : insert (lexIdx hi t.acting x) js.toFinset ⊆ Finset.range t.mat.n := by
      intro j hj
      rw [Finset.mem_insert, List.mem_toFinset] at hj
      rcases hj with rfl | hj
      · exact Finset.mem_range.2 hlt'
      · exact Finset.mem_range.2 (hj2 j hj).1
    rw [← Finset.sum_subset hins, Finset.sum_insert, List.sum_toFinset _ hj1]
    · rfl
    · rw [List.mem_toFinset]; exact fun h => (hj2 _ h).2 rfl
    · intro j hj hn
      rw [Finset.mem_insert, List.mem_toFinset, not_or] at hn
      exact hj3 j (Finset.mem_range.1 hj) hn.1 hn.2
  · intro q hq
    rcases List.mem_cons.1 hq with rfl | hq
    · exact hx
    · rw [xsN_eq hs x hx, hj4, List.map_map] at hq
      obtain ⟨j, hj, rfl⟩ := List.mem_map.1 hq
      have := conn_valid x hx t.acting j (by rw [← hf.dim]; exact (hj2 j hj).1)
      exact this
  · intro y hy
    rw [← term_sum hs t hf x y hx hy, List.map_cons, List.sum_cons]
    simp only [hc, zero_add]
    congr 1
    unfold melAt toPairs termConns
    simp only [List.map_map]
    rfl

/-! ### batches -/

/-- the situation of the theorems below: an operator without constant (built exactly), a successful
    construction, and not all weights zero. -/
structure Setup (hi : Fin N → List α) (op : LOp ℝ α N) (weights : Option (List ℝ)) (wl : List ℝ) :
    Prop where
  sorted : SortedSpace hi
  good : Good hi op
  const : op.constant = 0
  made : mkRule op weights = .ok wl
  pos : 0 < (weightsOf op weights).sum

theorem Setup.pick_lt {op : LOp ℝ α N} {weights wl} (h : Setup hi op weights wl) (u : ℝ) (hu : u < 1) :
    pickOp wl u < op.terms.length := by
  obtain ⟨_, h2, h3, h4⟩ := C140_construct op weights wl h.made
  have h1 := normalized_sum _ h.pos
  have hn := normalized_nonneg _ h3
  rw [← h4] at h1 hn
  rw [pickOp_eq wl hn h1]
  have hl : wl.length = op.terms.length := by rw [h4, List.length_map, h2]
  rw [← hl]
  refine Verif.AutoReg.choice_lt wl hn u (fun h => ?_) (by rw [h1, one_mul]; exact hu.le)
  rw [h] at h1; simp at h1

theorem Setup.row {op : LOp ℝ α N} {weights wl} (h : Setup hi op weights wl) (k : Nat)
    (hk : k < op.terms.length) (v : ℝ) (hv : v < 1) (x : Fin N → α) (hx : Valid hi x) :
    ∃ r y, filteredRow hi op k x = .ok r ∧ walk v 0 r = some y ∧ Valid hi y := by
  obtain ⟨h1, _⟩ := C140_construct op weights wl h.made
  have ht : op.terms[k]? = some op.terms[k] := List.getElem?_eq_getElem hk
  obtain ⟨r, hr, hne, _, hsum, hval, _⟩ := filteredRow_spec h.sorted op h.good h.const _ _ ht
    (h1 _ (List.getElem_mem hk)) x hx
  obtain ⟨y, hy⟩ := walk_some v 0 r hne (by rw [hsum, zero_add]; exact hv.le)
  refine ⟨r, y, hr, hy, ?_⟩
  obtain ⟨q, hq, rfl⟩ := List.mem_map.1 (walk_mem v 0 r y hy)
  exact hval q hq

theorem choose_rows {β : Type} (rows : List (List (ℝ × β))) (ps : List ℝ) (pre : List (ℝ × β))
    (h : ∀ (i : Nat) p r, ps[i]? = some p → rows[i]? = some r → ∃ y, walk p 0 r = some y) :
    chooseAll (pre ++ rows.flatten) pre.length ps (sectionsOf pre.length rows)
      = List.zipWith (fun p r => walk p 0 r) ps rows := by
  induction rows generalizing ps pre with
  | nil => cases ps <;> simp [sectionsOf, chooseAll]
  | cons r rows ih =>
    cases ps with
    | nil => simp [chooseAll]
    | cons p ps =>
      obtain ⟨y, hy⟩ := h 0 p r rfl rfl
      have hrec := ih ps (pre ++ r) fun i p' r' h1 h2 => h (i + 1) p' r' h1 h2
      rw [List.append_assoc, List.length_append] at hrec
      simp only [sectionsOf, chooseAll, List.flatten_cons, List.zipWith_cons_cons]
      rw [hrec, List.drop_left, walk_append p 0 r rows.flatten y hy, hy]

theorem map_some_filterMap {β : Type} (l : List (Option β)) (h : ∀ q ∈ l, ∃ y, q = some y) :
    (l.filterMap id).map some = l := by
  induction l with
  | nil => rfl
  | cons a l ih =>
    obtain ⟨y, rfl⟩ := h a List.mem_cons_self
    rw [show (some y :: l).filterMap id = y :: l.filterMap id from rfl, List.map_cons,
      ih fun q hq => h q (List.mem_cons_of_mem _ hq)]

theorem batch_rows {op : LOp ℝ α N} {weights wl} (h : Setup hi op weights wl) (us vs : List ℝ)
    (xs : List (Fin N → α)) (hu : us.length = xs.length) (hv : vs.length = xs.length)
    (hu1 : ∀ u ∈ us, u < 1) (hv1 : ∀ v ∈ vs, v < 1) (hx : ∀ x ∈ xs, Valid hi x) :
    ∃ rows, filteredFlat hi op (us.map (pickOp wl)) xs = .ok rows ∧ rows.length = xs.length ∧
      ∀ (i : Nat) u v x, us[i]? = some u → vs[i]? = some v → xs[i]? = some x →
        ∃ r y, rows[i]? = some r ∧ filteredRow hi op (pickOp wl u) x = .ok r ∧ walk v 0 r = some y ∧
          Valid hi y := by
  induction xs generalizing us vs with
  | nil =>
    have : us = [] := List.length_eq_zero_iff.1 hu
    subst this
    exact ⟨[], rfl, rfl, fun i u v x h => by simp at h⟩
  | cons x xs ih =>
    cases us with
    | nil => simp at hu
    | cons u us =>
      cases vs with
      | nil => simp at hv
      | cons v vs =>
        obtain ⟨r, y, h1, h2, h3⟩ := h.row _ (h.pick_lt u (hu1 u List.mem_cons_self)) v
          (hv1 v List.mem_cons_self) x (hx x List.mem_cons_self)
        obtain ⟨rows, i1, i2, i3⟩ := ih us vs (by simpa using hu) (by simpa using hv)
          (fun a ha => hu1 a (List.mem_cons_of_mem _ ha)) (fun a ha => hv1 a (List.mem_cons_of_mem _ ha))
          (fun a ha => hx a (List.mem_cons_of_mem _ ha))
        refine ⟨r :: rows, by simp only [List.map_cons, filteredFlat, h1, i1], by simp [i2], ?_⟩
        intro i u' v' x' g1 g2 g3
        cases i with
        | zero =>
          simp only [List.getElem?_cons_zero, Option.some.injEq] at g1 g2 g3
          subst g1; subst g2; subst g3
          exact ⟨r, y, rfl, h1, h2, h3⟩
        | succ i => exact i3 i u' v' x' g1 g2 g3

theorem transition_single (op : LOp ℝ α N) (wl : List ℝ) (u v : ℝ) (x : Fin N → α)
    (r : List (ℝ × (Fin N → α))) (h : filteredRow hi op (pickOp wl u) x = .ok r) :
    transition hi op wl [u] [v] [x] = .ok ([walk v 0 r], [0]) := by
  simp [transition, filteredFlat, h, chooseAll, sectionsOf]

/-- Every row of the batch is handled on its own: with uniform numbers from `[0, 1)` the buffers are
    never left, the proposal for row `i` is the proposal for that configuration and those two random
    numbers alone, it is a configuration of the space, and the reported correction is zero. -/
theorem C140_rows {op : LOp ℝ α N} {weights wl} (h : Setup hi op weights wl) (us vs : List ℝ)
    (xs : List (Fin N → α)) (hu : us.length = xs.length) (hv : vs.length = xs.length)
    (hu1 : ∀ u ∈ us, u < 1) (hv1 : ∀ v ∈ vs, v < 1) (hx : ∀ x ∈ xs, Valid hi x) :
    ∃ ys : List (Fin N → α), ys.length = xs.length ∧
      transition hi op wl us vs xs = .ok (ys.map some, List.replicate xs.length 0) ∧
      ∀ (i : Nat) u v x, us[i]? = some u → vs[i]? = some v → xs[i]? = some x →
        ∃ y, ys[i]? = some y ∧ Valid hi y ∧ transition hi op wl [u] [v] [x] = .ok ([some y], [0]) := by
  obtain ⟨rows, h1, h2, h3⟩ := batch_rows h us vs xs hu hv hu1 hv1 hx
  have hw : ∀ (i : Nat) p r, vs[i]? = some p → rows[i]? = some r → ∃ y, walk p 0 r = some y := by
    intro i p r hp hr
    have hl := (List.getElem?_eq_some_iff.1 hp).1
    obtain ⟨r', y, g1, _, g2, _⟩ := h3 i us[i] p xs[i] (List.getElem?_eq_getElem (by omega)) hp
      (List.getElem?_eq_getElem (by omega))
    rw [g1] at hr; cases hr
    exact ⟨y, g2⟩
  have hc := choose_rows rows vs [] hw
  simp only [List.nil_append, List.length_nil] at hc
  have key : ∀ (i : Nat) (q : Option (Fin N → α)),
      (List.zipWith (fun p r => walk p 0 r) vs rows)[i]? = some q → ∃ y, q = some y := by
    intro i q hq
    rw [List.getElem?_zipWith_eq_some] at hq
    obtain ⟨p, r, a, b, rfl⟩ := hq
    exact hw i p r a b
  refine ⟨(List.zipWith (fun p r => walk p 0 r) vs rows).filterMap id, ?_, ?_, ?_⟩
  all_goals
    have hall : ∀ q ∈ List.zipWith (fun p r => walk p 0 r) vs rows, ∃ y, q = some y := by
      intro q hq
      obtain ⟨i, hi'⟩ := List.getElem?_of_mem hq
      exact key i q hi'
    have hmap : ((List.zipWith (fun p r => walk p 0 r) vs rows).filterMap id).map some
        = List.zipWith (fun p r => walk p 0 r) vs rows := by
      exact map_some_filterMap _ hall
  · have := congrArg List.length hmap
    rw [List.length_map, List.length_zipWith] at this
    omega
  · rw [hmap]
    simp only [transition, h1, hc]
  · intro i u v x g1 g2 g3
    obtain ⟨r, y, k1, k2, k3, k4⟩ := h3 i u v x g1 g2 g3
    refine ⟨y, ?_, k4, by rw [transition_single op wl u v x r k2, k3]⟩
    have : (((List.zipWith (fun p r => walk p 0 r) vs rows).filterMap id).map some)[i]?
        = some (some y) := by
      rw [hmap, List.getElem?_zipWith_eq_some]
      exact ⟨v, r, g2, k1, k3⟩
    rw [List.getElem?_map, Option.map_eq_some_iff] at this
    obtain ⟨z, hz, hzy⟩ := this
    cases hzy
    exact hz

/-! ### the proposal distribution -/

theorem embed_nonneg (m : Nat → Nat → ℝ) (S : List (Fin N)) (x y : Fin N → α) (n : Nat)
    (hm : SymStochastic n m) (h1 : lexIdx hi S x < n) (h2 : lexIdx hi S y < n) :
    0 ≤ embed hi m S x y := by
  unfold embed
  split
  · exact hm.nonneg _ h1 _ h2
  · exact le_refl _

theorem embed_symm (m : Nat → Nat → ℝ) (S : List (Fin N)) (x y : Fin N → α) (n : Nat)
    (hm : SymStochastic n m) (h1 : lexIdx hi S x < n) (h2 : lexIdx hi S y < n) :
    embed hi m S x y = embed hi m S y x := by
  unfold embed
  by_cases h : ∀ s, s ∉ S → x s = y s
  · rw [if_pos h, if_pos fun s hs => (h s hs).symm]
    exact hm.symm _ h1 _ h2
  · rw [if_neg h, if_neg fun h' => h fun s hs => (h' s hs).symm]

theorem zipWith_eq_sum (s : ℝ) (f : Term ℝ α N → ℝ) (w : List ℝ) (ts : List (Term ℝ α N))
    (hl : w.length = ts.length) :
    (List.zipWith (fun (q : ℝ) (t : Term ℝ α N) => q / s * f t) w ts).sum
      = ∑ k : Fin ts.length, w[k]'(by omega) / s * f ts[k] := by
  induction w generalizing ts with
  | nil =>
    have : ts = [] := List.length_eq_zero_iff.1 hl.symm
    subst this; simp
  | cons q w ih =>
    cases ts with
    | nil => simp at hl
    | cons t ts =>
      rw [List.zipWith_cons_cons, List.sum_cons, ih ts (by simpa using hl)]
      exact (Fin.sum_univ_succ (fun k : Fin (ts.length + 1) =>
        (q :: w)[k]'(by simp only [List.length_cons] at hl ⊢; omega) / s * f (t :: ts)[k])).symm

theorem moveMatrix_eq_sum (op : LOp ℝ α N) (w : List ℝ) (hl : w.length = op.terms.length)
    (x y : Fin N → α) : moveMatrix hi op w x y
      = ∑ k : Fin op.terms.length, w[k]'(by omega) / w.sum
        * embed hi (op.terms[k]).mat.f (op.terms[k]).acting x y :=
  zipWith_eq_sum w.sum (fun t => embed hi t.mat.f t.acting x y) w op.terms hl

/-- the proposal for `x`, as a function of the two random numbers. -/
noncomputable def propose (hi : Fin N → List α) (op : LOp ℝ α N) (wl : List ℝ) (u v : ℝ)
    (x : Fin N → α) : Option (Fin N → α) :=
  match transition hi op wl [u] [v] [x] with
  | .ok ([y], _) => y
  | _ => none

theorem pick_monotone (wl : List ℝ) (hn : ∀ q ∈ wl, 0 ≤ q) (h1 : wl.sum = 1) :
    Monotone fun u : ℝ => pickOp wl u := by
  intro u u' huu
  simp only [pickOp_eq wl hn h1, Verif.AutoReg.choiceIndex_eq, h1, one_mul]
  refine List.countP_mono_left fun k _ hk => ?_
  rw [decide_eq_true_eq] at hk ⊢
  exact hk.trans_le huu

/-- From `x` the configuration `y` is proposed with probability `Σ_k (w_k / Σ w) ⟨x|O_k|y⟩` (both random
    numbers uniform on `[0, 1)` and independent). -/
theorem C140_proposal {op : LOp ℝ α N} {weights wl} (h : Setup hi op weights wl) (x y : Fin N → α)
    (hx : Valid hi x) (hy : Valid hi y) :
    volume {q : ℝ × ℝ | (0 ≤ q.1 ∧ q.1 < 1) ∧ (0 ≤ q.2 ∧ q.2 < 1) ∧ propose hi op wl q.1 q.2 x = some y}
      = ENNReal.ofReal (moveMatrix hi op (weightsOf op weights) x y) := by
  obtain ⟨h1, h2, h3, h4⟩ := C140_construct op weights wl h.made
  have hsum := normalized_sum _ h.pos
  have hnn := normalized_nonneg _ h3
  rw [← h4] at hsum hnn
  -- rows
  have hrow : ∀ k : Fin op.terms.length, ∃ r, filteredRow hi op k x = .ok r ∧ (∀ q ∈ r, 0 ≤ q.1) ∧
      (r.map Prod.fst).sum = 1 ∧ (r.map fun q => if q.2 = y then q.1 else 0).sum
        = embed hi (op.terms[k]).mat.f (op.terms[k]).acting x y := by
    intro k
    obtain ⟨r, a1, _, a2, a3, _, a4⟩ := filteredRow_spec h.sorted op h.good h.const k op.terms[k]
      (List.getElem?_eq_getElem k.2) (h1 _ (List.getElem_mem k.2)) x hx
    exact ⟨r, a1, a2, a3, a4 y hy⟩
  choose r r1 r2 r3 r4 using hrow
  set A : Fin op.terms.length → Set ℝ := fun k => {u | (0 ≤ u ∧ u < 1) ∧ pickOp wl u = k} with hA
  set B : Fin op.terms.length → Set ℝ := fun k => {v | (0 ≤ v ∧ v < 1) ∧ walk v 0 (r k) = some y} with hB
  have hset : {q : ℝ × ℝ | (0 ≤ q.1 ∧ q.1 < 1) ∧ (0 ≤ q.2 ∧ q.2 < 1) ∧
      propose hi op wl q.1 q.2 x = some y} = ⋃ k ∈ Finset.univ, A k ×ˢ B k := by
    ext ⟨u, v⟩
    simp only [Set.mem_ofPred_eq, Finset.mem_univ, Set.iUnion_true, Set.mem_iUnion, Set.mem_prod, hA, hB]
    constructor
    · rintro ⟨hu, hv, hp⟩
      refine ⟨⟨pickOp wl u, h.pick_lt u hu.2⟩, ⟨hu, rfl⟩, hv, ?_⟩
      rw [propose, transition_single op wl u v x _ (r1 ⟨pickOp wl u, h.pick_lt u hu.2⟩)] at hp
      exact hp
    · rintro ⟨k, ⟨hu, hk⟩, hv, hp⟩
      refine ⟨hu, hv, ?_⟩
      rw [propose, transition_single op wl u v x (r k) (by rw [hk]; exact r1 k)]
      exact hp
  have hmA : ∀ k, MeasurableSet (A k) := fun k =>
    (measurableSet_Ico (a := (0 : ℝ)) (b := 1)).inter
      ((pick_monotone wl hnn hsum).measurable (measurableSet_singleton (k : ℕ)))
  have hmB : ∀ k, MeasurableSet (B k) := fun k =>
    (measurableSet_Ico (a := (0 : ℝ)) (b := 1)).inter (walk_measurable 0 (r k) y)
  rw [hset, measure_biUnion_finset]
  · rw [moveMatrix_eq_sum op _ h2, ENNReal.ofReal_sum_of_nonneg]
    · refine Finset.sum_congr rfl fun k _ => ?_
      rw [Measure.volume_eq_prod, Measure.prod_prod]
      have hk : (k : ℕ) < (weightsOf op weights).length := by rw [h2]; exact k.2
      have e1 := C140_pick _ h3 h.pos k hk
      rw [← h4] at e1
      rw [show volume (A k) = _ from e1, show volume (B k) = _ from walk_volume (r k) y (r2 k) (r3 k),
        r4 k, ENNReal.ofReal_mul]
      · rfl
      · exact div_nonneg (h3 _ (List.getElem_mem hk)) (List.sum_nonneg h3)
    · intro k _
      have hm := h1 _ (List.getElem_mem k.2)
      have hf := (h.good.ok.terms _ (List.getElem_mem k.2))
      refine mul_nonneg (div_nonneg (h3 _ (List.getElem_mem _)) (List.sum_nonneg h3)) ?_
      exact embed_nonneg _ _ x y _ hm (by rw [hf.dim]; exact lexIdx_lt x hx _)
        (by rw [hf.dim]; exact lexIdx_lt y hy _)
  · intro k _ k' _ hkk
    rw [Function.onFun, Set.disjoint_left]
    rintro ⟨u, v⟩ ⟨⟨_, ha⟩, _⟩ ⟨⟨_, hb⟩, _⟩
    exact hkk (Fin.ext (ha.symm.trans hb))
  · exact fun k _ => (hmA k).prod (hmB k)

/-- the proposals are symmetric: `x → y` is as probable as `y → x`. -/
theorem C140_symmetric {op : LOp ℝ α N} {weights wl} (h : Setup hi op weights wl) (x y : Fin N → α)
    (hx : Valid hi x) (hy : Valid hi y) :
    moveMatrix hi op (weightsOf op weights) x y = moveMatrix hi op (weightsOf op weights) y x := by
  obtain ⟨h1, h2, _, _⟩ := C140_construct op weights wl h.made
  rw [moveMatrix_eq_sum op _ h2, moveMatrix_eq_sum op _ h2]
  refine Finset.sum_congr rfl fun k _ => ?_
  have hf := (h.good.ok.terms _ (List.getElem_mem k.2))
  congr 1
  refine embed_symm _ _ x y _ (h1 _ (List.getElem_mem k.2)) ?_ ?_
  · exact (lexIdx_lt x hx _).trans_eq hf.dim.symm
  · exact (lexIdx_lt y hy _).trans_eq hf.dim.symm

theorem moveMatrix_nonneg {op : LOp ℝ α N} {weights wl} (h : Setup hi op weights wl)
    (x y : Fin N → α) (hx : Valid hi x) (hy : Valid hi y) :
    0 ≤ moveMatrix hi op (weightsOf op weights) x y := by
  obtain ⟨h1, h2, h3, _⟩ := C140_construct op weights wl h.made
  rw [moveMatrix_eq_sum op _ h2]
  refine Finset.sum_nonneg fun k _ => ?_
  have hf := (h.good.ok.terms _ (List.getElem_mem k.2))
  refine mul_nonneg (div_nonneg (h3 _ (List.getElem_mem _)) (List.sum_nonneg h3)) ?_
  refine embed_nonneg _ _ x y _ (h1 _ (List.getElem_mem k.2)) ?_ ?_
  · exact (lexIdx_lt x hx _).trans_eq hf.dim.symm
  · exact (lexIdx_lt y hy _).trans_eq hf.dim.symm

theorem sum_list_comm {β : Type} [DecidableEq β] (S : Finset β) (r : List (ℝ × β))
    (hr : ∀ q ∈ r, q.2 ∈ S) :
    ∑ y ∈ S, (r.map fun q => if q.2 = y then q.1 else 0).sum = (r.map Prod.fst).sum := by
  induction r with
  | nil => simp
  | cons q r ih =>
    simp only [List.map_cons, List.sum_cons]
    rw [Finset.sum_add_distrib, ih fun q hq => hr q (List.mem_cons_of_mem _ hq)]
    congr 1
    rw [Finset.sum_ite_eq]
    exact if_pos (hr q List.mem_cons_self)

/-- some configuration is proposed with certainty. -/
theorem C140_total {op : LOp ℝ α N} {weights wl} (h : Setup hi op weights wl) (x : Fin N → α)
    (hx : Valid hi x) :
    ∑ y ∈ basisStates hi, moveMatrix hi op (weightsOf op weights) x y = 1 := by
  obtain ⟨h1, h2, h3, _⟩ := C140_construct op weights wl h.made
  simp only [moveMatrix_eq_sum op _ h2]
  rw [Finset.sum_comm]
  have hk : ∀ k : Fin op.terms.length, ∑ y ∈ basisStates hi,
      (weightsOf op weights)[k]'(by omega) / (weightsOf op weights).sum
        * embed hi (op.terms[k]).mat.f (op.terms[k]).acting x y
      = (weightsOf op weights)[k]'(by omega) / (weightsOf op weights).sum * 1 := by
    intro k
    rw [← Finset.mul_sum]
    congr 1
    obtain ⟨r, _, _, _, a3, a4, a5⟩ := filteredRow_spec h.sorted op h.good h.const k op.terms[k]
      (List.getElem?_eq_getElem k.2) (h1 _ (List.getElem_mem k.2)) x hx
    rw [← a3, ← sum_list_comm (basisStates hi) r fun q hq => (mem_basis _).2 (a4 q hq)]
    exact Finset.sum_congr rfl fun y hy => (a5 y ((mem_basis _).1 hy)).symm
  rw [Finset.sum_congr rfl fun k _ => hk k]
  have := zipWith_eq_sum (weightsOf op weights).sum (fun _ => (1 : ℝ)) (weightsOf op weights) op.terms h2
  rw [← this]
  refine Eq.trans ?_ (normalized_sum _ h.pos)
  congr 1
  generalize (weightsOf op weights).sum = s
  clear this hk
  generalize weightsOf op weights = w at h2
  generalize op.terms = ts at h2
  induction w generalizing ts with
  | nil => rfl
  | cons q w ih =>
    cases ts with
    | nil => simp at h2
    | cons t ts => rw [List.zipWith_cons_cons, List.map_cons, mul_one, ih ts (by simpa using h2)]

/-- the acceptance test of `MetropolisSamplerNumpy` with the correction zero set by this rule is the
    Metropolis test without correction. -/
theorem C140_accept_step {X : Type} (pow : Nat) (logPsi : X → ℝ) (u : ℝ) (x y : X) :
    (if npAcceptOne Real.exp pow (logPsi y) (logPsi x) 0 u then y else x)
      = moveOne Real.exp (fun z => pow * logPsi z) u x y none := by
  have : (pow : ℝ) * (logPsi y - logPsi x) + 0 = pow * logPsi y - pow * logPsi x := by ring
  simp only [npAcceptOne, moveOne, this, Option.getD_none, add_zero, gt_iff_lt]
  rfl

/-- With proposals distributed as in `C140_proposal`, any number of Metropolis moves satisfies detailed
    balance for `|ψ|^pow` (`logPsi` is the real part of the log-amplitude) and leaves it stationary. -/
theorem C140_detailed_balance {op : LOp ℝ α N} {weights wl} (h : Setup hi op weights wl) (pow : Nat)
    (logPsi : (Fin N → α) → ℝ) (n : Nat) :
    let w := fun (x : Fin N → α) (d : {y // y ∈ basisStates hi}) =>
      moveMatrix hi op (weightsOf op weights) x d.1
    let P := kpow (basisStates hi)
      (kernel w (step (fun z => pow * logPsi z) (fun d _ => d.1) (fun _ _ => none))) n
    Stochastic (basisStates hi) P ∧
      Reversible (basisStates hi) (fun x => Real.exp (pow * logPsi x)) P ∧
      Stationary (basisStates hi) (fun x => Real.exp (pow * logPsi x)) P := by
  intro w
  have hprop : ∀ x y, x ∈ basisStates hi → y ∈ basisStates hi →
      proposal w (fun d _ => d.1) x y = moveMatrix hi op (weightsOf op weights) x y := by
    intro x y _ hy
    unfold proposal
    rw [Finset.sum_eq_single ⟨y, hy⟩]
    · simp [w]
    · intro d _ hd
      rw [if_neg]
      intro he
      exact hd (Subtype.ext he)
    · intro hn; exact absurd (Finset.mem_univ _) hn
  refine C44_stationary (basisStates hi) w (fun d _ => d.1) (fun _ _ => none)
    (fun z => pow * logPsi z) ⟨?_, ?_, fun _ _ d _ => d.2, fun _ _ => 0, fun _ _ _ _ => rfl, ?_⟩ n
  · exact fun x hx d => moveMatrix_nonneg h x d.1 ((mem_basis _).1 hx) ((mem_basis _).1 d.2)
  · intro x hx
    rw [← C140_total h x ((mem_basis _).1 hx)]
    exact Finset.sum_coe_sort (basisStates hi) (fun y => moveMatrix hi op (weightsOf op weights) x y)
  · intro x hx y hy _
    rw [hprop x y hx hy, hprop y x hy hx, Real.exp_zero, mul_one]
    exact C140_symmetric h x y ((mem_basis _).1 hx) ((mem_basis _).1 hy)

end

/-! ### a concrete case -/

/-- two spins; both sites are refreshed at random, site 1 three times as often. -/
noncomputable def exCut : Cutoff ℝ := ⟨fun z => decide (z ≠ 0), fun z => decide (z ≠ 0)⟩

noncomputable def exMat : Mat ℝ := ⟨2, fun _ _ => 1 / 2⟩

def exHi : Fin 2 → List Int := fun _ => [-1, 1]

noncomputable def exOp : LOp ℝ Int 2 :=
  { constant := 0
    terms := [appendMatrix exCut exHi exMat [0], appendMatrix exCut exHi exMat [1]]
    nonzeroDiag := true
    isHerm := true }

theorem exSym : SymStochastic 2 (fun _ _ => 1 / 2) :=
  ⟨fun _ _ _ _ => by norm_num, fun _ _ => by norm_num, fun _ _ _ _ => rfl⟩

theorem exGood : Good exHi exOp where
  shape := ⟨by simp [exOp, appendMatrix], by simp [exOp, appendMatrix],
    by simp [exOp, appendMatrix, exMat, dims, exHi]⟩
  ok := ⟨by
    intro t ht
    simp only [exOp, List.mem_cons, List.not_mem_nil, or_false] at ht
    have hz : ∀ z : ℝ, exCut.gt z = false → z = 0 := fun z h => by simpa [exCut] using h
    rcases ht with rfl | rfl
    · exact Faithful_append hz exMat [0] (by simp) (by simp [exMat, dims, exHi])
    · exact Faithful_append hz exMat [1] (by simp) (by simp [exMat, dims, exHi]),
    fun h => by simp [exOp] at h⟩

example : ∃ wl, Setup exHi exOp (some [1, 3]) wl := by
  have hw : weightsOf exOp (some [1, 3]) = [1, 3] := rfl
  obtain ⟨wl, h⟩ := C140_accept exOp (some [1, 3]) (by simp [exOp])
    (by
      intro t ht
      simp only [exOp, List.mem_cons, List.not_mem_nil, or_false] at ht
      rcases ht with rfl | rfl <;> exact exSym)
    (by rw [hw]; intro q hq; simp at hq; rcases hq with rfl | rfl <;> norm_num)
    (by rw [hw]; rfl)
  exact ⟨wl, fun s => by simp [exHi], exGood, rfl, h, by rw [hw]; norm_num⟩

example : moveMatrix exHi exOp [1, 3] (fun _ => -1) (fun s => if s = 1 then 1 else -1) = 3 / 8 := by
  have h0 : ¬ ∀ s : Fin 2, s ∉ ([0] : List (Fin 2)) →
      (-1 : Int) = (if s = 1 then 1 else -1) := by decide
  have h1 : ∀ s : Fin 2, s ∉ ([1] : List (Fin 2)) → (-1 : Int) = (if s = 1 then 1 else -1) := by decide
  simp only [moveMatrix, exOp, appendMatrix, exMat, embed, List.zipWith_cons_cons, List.zipWith_nil_left,
    if_neg h0, if_pos h1, List.sum_cons, List.sum_nil]
  norm_num

/-! ### C141: operators with a constant, and small matrix elements -/

/-- one spin. -/
def oneSpin : Fin 1 → List Int := fun _ => [-1, 1]

def cut6 : Cutoff ℚ := ⟨fun z => decide (1 / 1000000 < |z|), fun z => decide (1 / 1000000 ≤ |z|)⟩

/-- the spin flip `σˣ + c`. -/
def flipPlus (c : ℚ) : LOp ℚ Int 1 :=
  { constant := c
    terms := [appendMatrix cut6 oneSpin ⟨2, fun i j => if i = j then 0 else 1⟩ [0]]
    nonzeroDiag := true
    isHerm := true }

/-- a spin flip with probability `10⁻⁷`. -/
def rareFlip : LOp ℚ Int 1 :=
  { constant := 0
    terms := [appendMatrix cut6 oneSpin
      ⟨2, fun i j => if i = j then 1 - 1 / 10000000 else 1 / 10000000⟩ [0]]
    nonzeroDiag := true
    isHerm := true }

def proposalOf (r : Except Err (List (Option (Fin 1 → Int)) × List ℚ)) : Option (List (Option Int)) :=
  match r with
  | .ok p => some (p.1.map fun y => y.map fun f => f 0)
  | .error _ => none

/-- An operator with a constant is accepted, but the rule then reads behind the end of the arrays:
    `σˣ - 1` has rows `-1, 1`, whose cumulative sums never reach the random number. -/
theorem C141_constant_refuted :
    ¬ ∀ (op : LOp ℚ Int 1) (wl : List ℚ), mkRule op none = .ok wl → ∀ u v : ℚ, 0 ≤ u → u < 1 →
      0 ≤ v → v < 1 → ∃ y, proposalOf (transition oneSpin op wl [u] [v] [fun _ => 1]) = some [some y] := by
  intro h
  obtain ⟨y, hy⟩ := h (flipPlus (-1)) [1] (by decide +kernel) (1 / 2) (1 / 2) (by norm_num) (by norm_num)
    (by norm_num) (by norm_num)
  have : proposalOf (transition oneSpin (flipPlus (-1)) [1] [1 / 2] [1 / 2] [fun _ => 1])
      = some [none] := by decide +kernel
  rw [this] at hy
  cases hy

/-- Matrix elements below `mel_cutoff` are dropped from the tables but not from the check: with a
    flip probability of `10⁻⁷` and a random number above `1 - 10⁻⁷` the rule reads behind the end of the
    arrays (for the last chain; for the others it continues with the row of the next chain). -/
theorem C141_cutoff_refuted :
    ¬ ∀ (op : LOp ℚ Int 1) (wl : List ℚ), op.constant = 0 → mkRule op none = .ok wl → ∀ u v : ℚ,
      0 ≤ u → u < 1 → 0 ≤ v → v < 1 →
      ∃ y, proposalOf (transition oneSpin op wl [u] [v] [fun _ => 1]) = some [some y] := by
  intro h
  obtain ⟨y, hy⟩ := h rareFlip [1] rfl (by decide +kernel) (1 / 2) (1 - 1 / 100000000) (by norm_num)
    (by norm_num) (by norm_num) (by norm_num)
  have : proposalOf (transition oneSpin rareFlip [1] [1 / 2] [1 - 1 / 100000000] [fun _ => 1])
      = some [none] := by decide +kernel
  rw [this] at hy
  cases hy

/-- The same in a batch: the proposal for the first chain is the configuration of the *second* one. -/
theorem C141_neighbour_refuted :
    ¬ ∀ (op : LOp ℚ Int 1) (wl : List ℚ), op.constant = 0 → mkRule op none = .ok wl →
      ∀ (u v u' v' : ℚ) (x x' : Int) (y y' z : Option Int),
        proposalOf (transition oneSpin op wl [u, u'] [v, v'] [fun _ => x, fun _ => x']) = some [y, y'] →
        proposalOf (transition oneSpin op wl [u] [v] [fun _ => x]) = some [z] → y = z := by
  intro h
  have := h rareFlip [1] rfl (by decide +kernel) (1 / 2) (1 - 1 / 100000000) (1 / 2) (1 / 2) 1 (-1)
    (some (-1)) (some (-1)) none (by decide +kernel) (by decide +kernel)
  cases this

/-- With a positive constant the rule stays where it is: `σˣ + 1` moves a spin with every application of
    `σˣ`, the rule never does. -/
theorem C141_stuck_refuted :
    ¬ ∀ (op : LOp ℚ Int 1) (wl : List ℚ), mkRule op none = .ok wl →
      (∃ t ∈ op.terms, embed oneSpin t.mat.f t.acting (fun _ => 1) (fun _ => -1) = 1) →
      ∃ u v : ℚ, 0 ≤ v ∧ v < 1 ∧
        proposalOf (transition oneSpin op wl [u] [v] [fun _ => 1]) = some [some (-1)] := by
  intro h
  obtain ⟨u, v, h0, h1, h2⟩ := h (flipPlus 1) [1] (by decide +kernel)
    ⟨_, List.mem_singleton.2 rfl, by decide +kernel⟩
  have hrow : ∀ k, (∃ c rest, filteredRow oneSpin (flipPlus 1) k (fun _ => 1)
      = .ok ((c, fun _ => 1) :: rest) ∧ 1 ≤ c) ∨ filteredRow oneSpin (flipPlus 1) k (fun _ => 1)
        = .error .assertionError := by
    intro k
    cases k with
    | zero => left; exact ⟨_, _, rfl, by decide +kernel⟩
    | succ k => right; rfl
  rcases hrow (pickOp [1] u) with ⟨c, rest, hr, hc⟩ | hr
  · simp only [transition, List.map_cons, List.map_nil, filteredFlat, hr, chooseAll, sectionsOf,
      List.flatten_cons, List.flatten_nil, List.append_nil, List.drop_zero, walk, zero_add, gt_iff_lt,
      if_neg (not_lt.2 (h1.le.trans hc)), proposalOf] at h2
    cases h2
  · simp only [transition, List.map_cons, List.map_nil, filteredFlat, hr, proposalOf] at h2
    cases h2

/-- What holds for any operator: if the row of the drawn operator (constant included, after dropping
    small elements) adds up to at least one, the draw stays inside the row. Missing from the claim: the
    rows of accepted operators add up to one. -/
theorem C141_inside_partial {R α : Type} [Field R] [LinearOrder R] [IsStrictOrderedRing R]
    [LinearOrder α] {N : Nat} (hi : Fin N → List α) (op : LOp R α N) (wl : List R) (u v : R)
    (x : Fin N → α) (r : List (R × (Fin N → α))) (hr : filteredRow hi op (pickOp wl u) x = .ok r)
    (hsum : 1 ≤ (r.map Prod.fst).sum) (hv : v < 1) :
    ∃ y ∈ r.map Prod.snd, transition hi op wl [u] [v] [x] = .ok ([some y], [0]) := by
  have hne : r ≠ [] := by
    rintro rfl
    simp at hsum
    exact absurd hsum (not_le.2 zero_lt_one)
  obtain ⟨y, hy⟩ := walk_some v 0 r hne (by rw [zero_add]; exact hv.le.trans hsum)
  refine ⟨y, walk_mem v 0 r y hy, ?_⟩
  simp [transition, filteredFlat, hr, chooseAll, sectionsOf, hy]

end Verif.Custom
