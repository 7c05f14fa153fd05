import Verif.Model.LegacyCustom
import Verif.Props.CustomRule
import Verif.Props.LegacySampler

/-! C208, C209: the kernel of the legacy `CustomSampler`. -/

set_option linter.unusedSectionVars false

namespace Verif.LegacyCustom
open Verif.LocalOp Verif.Hilbert Verif.Markov Verif.Metro MeasureTheory
open Verif.Custom (SymStochastic moveMatrix chooseAll filteredFlat filteredRow checkMat)
open Verif.Legacy (Heap move)

section
variable {α : Type} [LinearOrder α] [Inhabited α] {N : Nat} {hi : Fin N → List α}

/-! ### Specification -/

/-- the weights meant by the argument `move_weights`, for `n` operators; `mem a` is the array at address `a`. -/
def meant (n : Nat) (mem : Nat → List ℝ) : Weights ℝ → List ℝ
  | .default => List.replicate n 1
  | .list w => w
  | .array a => mem a

/-- the kernel `k` was built from an operator without constant (built exactly) and not all weights are zero. -/
structure Built (hi : Fin N → List α) (op : LOp ℝ α N) (arg : Weights ℝ) (h : Heap ℝ) (k : Kernel ℝ) : Prop where
  sorted : SortedSpace hi
  good : Good hi op
  const : op.constant = 0
  made : ∃ r s, (init op arg r s h).1 = .ok k
  pos : 0 < (meant op.terms.length h.get arg).sum

/-! ### construction -/

theorem place_get (n : Nat) (h : Heap ℝ) (arg : Weights ℝ) :
    (placeWeights n h arg).2.get (placeWeights n h arg).1 = meant n h.get arg := by
  cases arg <;> simp [placeWeights, meant]

theorem weightsOk_iff (n : Nat) (w : List ℝ) :
    weightsOk n w = true ↔ w.length = n ∧ w ≠ [] ∧ ∀ q ∈ w, 0 ≤ q := by
  simp [weightsOk, and_assoc]

theorem checkAll_iff (op : LOp ℝ α N) :
    (op.terms.all fun t => checkMat t.mat) = true ↔ ∀ t ∈ op.terms, SymStochastic t.mat.n t.mat.f := by
  rw [List.all_eq_true]
  constructor
  · exact fun h t ht => Verif.Custom.checkMat_spec t.mat (h t ht)
  · intro h t ht
    obtain ⟨a, b, c⟩ := h t ht
    simp only [checkMat, Bool.and_eq_true, List.all_eq_true, List.mem_range, decide_eq_true_eq, Verif.Custom.sum_range_map]
    refine ⟨⟨⟨a, fun j hj => ?_⟩, b⟩, c⟩
    rw [← b j hj]
    exact Finset.sum_congr rfl fun i hi => c i (Finset.mem_range.1 hi) j hj

theorem init_cases (op : LOp ℝ α N) (arg : Weights ℝ) (r s : Nat) (h : Heap ℝ) :
    ((init op arg r s h).1 = .error .assertionError ∧ ¬ (∀ t ∈ op.terms, SymStochastic t.mat.n t.mat.f)) ∨
    ((∀ t ∈ op.terms, SymStochastic t.mat.n t.mat.f) ∧ (init op arg r s h).1 = .error .valueError ∧
      ¬ ((meant op.terms.length h.get arg).length = op.terms.length ∧ meant op.terms.length h.get arg ≠ [] ∧
        ∀ q ∈ meant op.terms.length h.get arg, 0 ≤ q)) ∨
    ((∀ t ∈ op.terms, SymStochastic t.mat.n t.mat.f) ∧ ((meant op.terms.length h.get arg).length = op.terms.length ∧
        meant op.terms.length h.get arg ≠ [] ∧ ∀ q ∈ meant op.terms.length h.get arg, 0 ≤ q) ∧
      (init op arg r s h).1 = .ok ⟨(placeWeights op.terms.length h arg).1, Verif.AutoReg.cumsum
        ((meant op.terms.length h.get arg).map fun x => x / (meant op.terms.length h.get arg).sum), [r], [s]⟩) := by
  unfold init
  simp only [place_get]
  by_cases hc : (op.terms.all fun t => checkMat t.mat) = true
  · rw [if_pos hc]
    right
    have hc' := (checkAll_iff op).1 hc
    by_cases hw : weightsOk op.terms.length (meant op.terms.length h.get arg) = true
    · rw [if_pos hw]
      exact .inr ⟨hc', (weightsOk_iff _ _).1 hw, rfl⟩
    · rw [if_neg hw]
      exact .inl ⟨hc', rfl, fun hh => hw ((weightsOk_iff _ _).2 hh)⟩
  · rw [if_neg hc]
    exact .inl ⟨rfl, fun hh => hc ((checkAll_iff op).2 hh)⟩

/-- C208: exactly the operators whose matrices are all symmetric and stochastic are accepted, with one non-negative weight for each of them (and at
    least one operator). -/
theorem C208_accept (op : LOp ℝ α N) (arg : Weights ℝ) (r s : Nat) (h : Heap ℝ) :
    (∃ k, (init op arg r s h).1 = .ok k) ↔
      op.terms ≠ [] ∧ (∀ t ∈ op.terms, SymStochastic t.mat.n t.mat.f) ∧
      (meant op.terms.length h.get arg).length = op.terms.length ∧ ∀ q ∈ meant op.terms.length h.get arg, 0 ≤ q := by
  rcases init_cases op arg r s h with ⟨e, hn⟩ | ⟨ht, e, hn⟩ | ⟨ht, hw, e⟩
  · rw [e]
    exact ⟨fun ⟨k, hk⟩ => by simp at hk, fun hh => absurd hh.2.1 hn⟩
  · rw [e]
    refine ⟨fun ⟨k, hk⟩ => by simp at hk, fun hh => absurd ⟨hh.2.2.1, ?_, hh.2.2.2⟩ hn⟩
    intro h0
    have := hh.2.2.1
    rw [h0] at this
    exact hh.1 (List.length_eq_zero_iff.1 this.symm)
  · rw [e]
    refine ⟨fun _ => ⟨?_, ht, hw.1, hw.2.2⟩, fun _ => ⟨_, rfl⟩⟩
    intro h0
    apply hw.2.1
    rw [← List.length_eq_zero_iff, hw.1, h0]; rfl

/-- C208: the errors: AssertionError for a matrix that is not symmetric and stochastic (whatever the weights), else ValueError. -/
theorem C208_reject (op : LOp ℝ α N) (arg : Weights ℝ) (r s : Nat) (h : Heap ℝ) :
    ((∃ t ∈ op.terms, ¬ SymStochastic t.mat.n t.mat.f) → (init op arg r s h).1 = .error .assertionError) ∧
    ((∀ t ∈ op.terms, SymStochastic t.mat.n t.mat.f) → (op.terms = [] ∨
      (meant op.terms.length h.get arg).length ≠ op.terms.length ∨ ∃ q ∈ meant op.terms.length h.get arg, q < 0) →
      (init op arg r s h).1 = .error .valueError) := by
  rcases init_cases op arg r s h with ⟨e, hn⟩ | ⟨ht, e, hn⟩ | ⟨ht, hw, e⟩
  · exact ⟨fun _ => e, fun hh => absurd hh hn⟩
  · exact ⟨fun ⟨t, htm, hh⟩ => absurd (ht t htm) hh, fun _ _ => e⟩
  · refine ⟨fun ⟨t, htm, hh⟩ => absurd (ht t htm) hh, fun _ hh => ?_⟩
    exfalso
    rcases hh with h0 | h0 | ⟨q, hq, h0⟩
    · apply hw.2.1
      rw [← List.length_eq_zero_iff, hw.1, h0]; rfl
    · exact h0 hw.1
    · exact absurd (hw.2.2 q hq) (not_le.2 h0)

/-! ### the kernel as the rule of the new sampler -/

theorem Built.setup {op : LOp ℝ α N} {arg : Weights ℝ} {h : Heap ℝ} {k : Kernel ℝ} (b : Built hi op arg h k) :
    Verif.Custom.Setup hi op (some (meant op.terms.length h.get arg))
      ((meant op.terms.length h.get arg).map fun x => x / (meant op.terms.length h.get arg).sum) ∧
    k.cumulative = Verif.AutoReg.cumsum ((meant op.terms.length h.get arg).map fun x => x / (meant op.terms.length h.get arg).sum) ∧
    k.randOp.length = k.sections.length := by
  obtain ⟨r, s, hk⟩ := b.made
  rcases init_cases op arg r s h with ⟨e, hn⟩ | ⟨ht, e, hn⟩ | ⟨ht, hw, e⟩
  · rw [e] at hk; cases hk
  · rw [e] at hk; cases hk
  · rw [e] at hk
    simp only [Except.ok.injEq] at hk
    obtain ⟨wl, hm⟩ := Verif.Custom.C140_accept op (some (meant op.terms.length h.get arg))
      (fun h0 => hw.2.1 (List.length_eq_zero_iff.1 (by rw [hw.1, h0]; rfl))) ht hw.2.2 hw.1
    obtain ⟨_, _, _, hwl⟩ := Verif.Custom.C140_construct op _ wl hm
    subst hwl
    refine ⟨⟨b.sorted, b.good, b.const, hm, b.pos⟩, ?_, ?_⟩
    · rw [← hk]
    · rw [← hk]; rfl

theorem fillOps_eq (c : List ℝ) (s : Nat → ℝ) (i : Nat) (out : List Nat) :
    fillOps c s i out = (List.range out.length).map fun j => Verif.HilbertIndex.searchsorted c (s (i + j)) := by
  induction out generalizing i with
  | nil => rfl
  | cons a out ih =>
    rw [fillOps, ih, List.length_cons, List.range_succ_eq_map, List.map_cons, List.map_map]
    congr 1
    refine List.map_congr_left fun j _ => ?_
    simp only [Function.comp]
    congr 2
    omega

theorem fillOps_length (c : List ℝ) (s : Nat → ℝ) (i : Nat) (out : List Nat) : (fillOps c s i out).length = out.length := by
  rw [fillOps_eq]; simp

theorem filteredFlat_length (op : LOp ℝ α N) (fs : List Nat) (xs : List (Fin N → α)) (rows)
    (hl : fs.length = xs.length) (hr : filteredFlat hi op fs xs = .ok rows) : rows.length = xs.length := by
  induction xs generalizing fs rows with
  | nil =>
    have : fs = [] := List.length_eq_zero_iff.1 hl
    subst this
    simp only [filteredFlat, Except.ok.injEq] at hr
    rw [← hr]; rfl
  | cons x xs ih =>
    cases fs with
    | nil => simp at hl
    | cons f fs =>
      rw [filteredFlat] at hr
      rcases h1 : filteredRow hi op f x with e | r
      · rw [h1] at hr; cases hr
      rcases h2 : filteredFlat hi op fs xs with e | rs
      · rw [h1, h2] at hr; cases hr
      rw [h1, h2] at hr
      simp only [Except.ok.injEq] at hr
      rw [← hr, List.length_cons, List.length_cons, ih fs rs (by simpa using hl) h2]

theorem sectionsOf_length {β : Type} (c : Nat) (rows : List (List β)) : (Custom.sectionsOf c rows).length = rows.length := by
  induction rows generalizing c with
  | nil => rfl
  | cons r rows ih => rw [Custom.sectionsOf, List.length_cons, ih, List.length_cons]

/-- what one call does, whatever the two buffers contain. -/
theorem transition_eq (op : LOp ℝ α N) (k : Kernel ℝ) (wl : List ℝ) (hc : k.cumulative = Verif.AutoReg.cumsum wl)
    (hl : k.randOp.length = k.sections.length) (s : Nat → ℝ) (xs : List (Fin N → α)) :
    (transition hi op k s xs).1 = Verif.Custom.transition hi op wl ((List.range xs.length).map s)
        ((List.range xs.length).map fun i => s (xs.length + i)) xs ∧
      (transition hi op k s xs).2.cumulative = k.cumulative ∧
      (transition hi op k s xs).2.randOp.length = (transition hi op k s xs).2.sections.length := by
  obtain ⟨b1, b2⟩ : (pickInit xs.length k.cumulative k.randOp k.sections s).1
        = ((List.range xs.length).map s).map (Verif.Custom.pickOp wl) ∧
      (pickInit xs.length k.cumulative k.randOp k.sections s).2.length = xs.length := by
    unfold pickInit
    simp only [fillOps_eq, hc, List.map_map, zero_add]
    by_cases h : k.randOp.length ≠ xs.length
    · rw [if_pos h]
      simp only [List.length_replicate]
      exact ⟨rfl, trivial⟩
    · rw [if_neg h]
      have h' := not_not.1 h
      rw [h']
      exact ⟨rfl, by rw [← hl, h']⟩
  unfold transition getConn
  simp only [b1, b2, List.length_map, List.length_range, and_self, if_true]
  unfold Verif.Custom.transition
  rcases hr : filteredFlat hi op (((List.range xs.length).map s).map (Verif.Custom.pickOp wl)) xs with e | rows
  · simp
    exact b2.symm
  · have := filteredFlat_length op _ xs rows (by simp) hr
    refine ⟨rfl, rfl, ?_⟩
    simp only [List.length_map, List.length_range]
    rw [sectionsOf_length, this]

/-- C208: the proposals. There is one map `prop` from two random numbers and a configuration to a configuration of the space such that `y` is proposed
    from `x` with probability `Σ_k (w_k / Σ w) ⟨x|O_k|y⟩`, and such that in every sequence of calls, with batches of any sizes, row `i` of a call with
    `n` rows is `prop` of the numbers `i` and `n + i` of that call; the corrections are zero. In particular neither the other rows nor what earlier
    calls (or `np.empty`) left in the buffers matter. -/
theorem C208_proposal {op : LOp ℝ α N} {arg : Weights ℝ} {h : Heap ℝ} {k : Kernel ℝ} (b : Built hi op arg h k) :
    ∃ prop : ℝ → ℝ → (Fin N → α) → (Fin N → α),
      (∀ x y, Valid hi x → Valid hi y →
        volume {q : ℝ × ℝ | (0 ≤ q.1 ∧ q.1 < 1) ∧ (0 ≤ q.2 ∧ q.2 < 1) ∧ prop q.1 q.2 x = y}
          = ENNReal.ofReal (moveMatrix hi op (meant op.terms.length h.get arg) x y)) ∧
      (∀ u v x, u < 1 → v < 1 → Valid hi x → Valid hi (prop u v x)) ∧
      ∀ cs : List ((Nat → ℝ) × List (Fin N → α)),
        (∀ c ∈ cs, (∀ i, c.1 i < 1) ∧ ∀ x ∈ c.2, Valid hi x) →
        calls hi op k cs = cs.map fun c =>
          .ok ((List.zipWith (fun i x => some (prop (c.1 i) (c.1 (c.2.length + i)) x)) (List.range c.2.length) c.2),
            List.replicate c.2.length 0) := by
  obtain ⟨hs, hc, hl⟩ := b.setup
  set wl := (meant op.terms.length h.get arg).map fun x => x / (meant op.terms.length h.get arg).sum with hwl
  refine ⟨fun u v x => (Verif.Custom.propose hi op wl u v x).getD x, ?_, ?_, ?_⟩
  · intro x y hx hy
    refine Eq.trans ?_ (Verif.Custom.C140_proposal hs x y hx hy)
    congr 1
    ext ⟨u, v⟩
    simp only [Set.mem_setOf_eq]
    refine and_congr_right fun hu => and_congr_right fun hv => ?_
    obtain ⟨ys, _, hy2, hy3⟩ := Verif.Custom.C140_rows hs [u] [v] [x] rfl rfl (by simpa using hu.2) (by simpa using hv.2)
      (by simpa using hx)
    obtain ⟨z, _, _, hz⟩ := hy3 0 u v x rfl rfl rfl
    simp [Verif.Custom.propose, hz]
  · intro u v x hu hv hx
    obtain ⟨ys, _, hy2, hy3⟩ := Verif.Custom.C140_rows hs [u] [v] [x] rfl rfl (by simpa using hu) (by simpa using hv)
      (by simpa using hx)
    obtain ⟨z, _, hz1, hz⟩ := hy3 0 u v x rfl rfl rfl
    simpa [Verif.Custom.propose, hz] using hz1
  · intro cs
    generalize hk : k = k0 at hc hl
    clear hk b
    induction cs generalizing k0 with
    | nil => intro _; rfl
    | cons c cs ih =>
      intro hcs
      obtain ⟨e1, e2, e3⟩ := transition_eq (hi := hi) op k0 wl hc hl c.1 c.2
      rw [calls, ih _ (e2.trans hc) e3 fun c' hc' => hcs c' (List.mem_cons_of_mem _ hc'), List.map_cons, e1]
      congr 1
      obtain ⟨h1, h2⟩ := hcs c List.mem_cons_self
      obtain ⟨ys, hy1, hy2, hy3⟩ := Verif.Custom.C140_rows hs ((List.range c.2.length).map c.1)
        ((List.range c.2.length).map fun i => c.1 (c.2.length + i)) c.2 (by simp) (by simp)
        (by intro u hu; obtain ⟨i, _, rfl⟩ := List.mem_map.1 hu; exact h1 i)
        (by intro u hu; obtain ⟨i, _, rfl⟩ := List.mem_map.1 hu; exact h1 _) h2
      rw [hy2]
      congr 2
      refine List.ext_getElem? fun i => ?_
      by_cases hi' : i < c.2.length
      · obtain ⟨y, g1, _, g2⟩ := hy3 i (c.1 i) (c.1 (c.2.length + i)) c.2[i] (by simp [hi']) (by simp [hi'])
          (List.getElem?_eq_getElem hi')
        rw [List.getElem?_map, g1, List.getElem?_zipWith, List.getElem?_range hi', List.getElem?_eq_getElem hi']
        simp [Verif.Custom.propose, g2]
      · rw [List.getElem?_eq_none (by simp; omega), List.getElem?_eq_none (by simp; omega)]

/-- C208: the proposals are symmetric, and some configuration is proposed with certainty. -/
theorem C208_symmetric {op : LOp ℝ α N} {arg : Weights ℝ} {h : Heap ℝ} {k : Kernel ℝ} (b : Built hi op arg h k) :
    (∀ x y, Valid hi x → Valid hi y → moveMatrix hi op (meant op.terms.length h.get arg) x y
      = moveMatrix hi op (meant op.terms.length h.get arg) y x) ∧
    ∀ x, Valid hi x → ∑ y ∈ basisStates hi, moveMatrix hi op (meant op.terms.length h.get arg) x y = 1 :=
  ⟨fun x y hx hy => Verif.Custom.C140_symmetric b.setup.1 x y hx hy, fun x hx => Verif.Custom.C140_total b.setup.1 x hx⟩

/-- C208: with these proposals any number of moves of the legacy sampler satisfies detailed balance for `|psi|^machine_pow` and leaves it stationary. -/
theorem C208_stationary {op : LOp ℝ α N} {arg : Weights ℝ} {h : Heap ℝ} {k : Kernel ℝ} (b : Built hi op arg h k) (pow : Nat)
    (lp : (Fin N → α) → ℝ) (n : Nat) :
    let w := fun (x : Fin N → α) (d : {y // y ∈ basisStates hi}) => moveMatrix hi op (meant op.terms.length h.get arg) x d.1
    let P := kpow (basisStates hi) (kernel w (move pow lp (fun d _ => d.1) fun _ _ => 0)) n
    Stochastic (basisStates hi) P ∧ Reversible (basisStates hi) (fun x => Real.exp (pow * lp x)) P ∧
      Stationary (basisStates hi) (fun x => Real.exp (pow * lp x)) P := by
  rw [Verif.Legacy.move_eq]
  exact Verif.Custom.C140_detailed_balance b.setup.1 pow lp n

/-! ### C209 -/

/-- C209: an array of weights given by the caller holds the normalised weights afterwards: it is changed whenever the weights do not add up to one. -/
theorem C209_weights_refuted (op : LOp ℝ α N) (a r s : Nat) (h : Heap ℝ) (k : Kernel ℝ)
    (hk : (init op (.array a) r s h).1 = .ok k) :
    (init op (.array a) r s h).2.get a = (h.get a).map (fun x => x / (h.get a).sum) ∧
    ((h.get a).sum ≠ 0 → (h.get a).sum ≠ 1 → (init op (.array a) r s h).2.get a ≠ h.get a) := by
  have e : (init op (.array a) r s h).2.get a = (h.get a).map (fun x => x / (h.get a).sum) := by
    unfold init at hk ⊢
    simp only [placeWeights] at hk ⊢
    by_cases h1 : (op.terms.all fun t => checkMat t.mat) = true
    · simp only [h1, if_true] at hk ⊢
      by_cases h2 : weightsOk op.terms.length (h.get a) = true
      · simp [h2, Heap.set]
      · simp [h2] at hk
    · simp [h1] at hk
  refine ⟨e, fun h0 h1 h2 => ?_⟩
  rw [e] at h2
  have h3 := congrArg List.sum h2
  have hd : ∀ (l : List ℝ) (q : ℝ), (l.map fun x => x / q).sum = l.sum / q := by
    intro l q
    induction l with
    | nil => simp
    | cons x l ih => rw [List.map_cons, List.sum_cons, ih, List.sum_cons, add_div]
  rw [hd, div_self h0] at h3
  exact h1 h3.symm

/-- C209: what holds: the other arrays of the caller keep their contents, and all of them if the weights are not given as an array of floats or if the
    construction fails. Missing from the claim: the array given as `move_weights`. -/
theorem C209_arrays_partial (op : LOp ℝ α N) (arg : Weights ℝ) (r s : Nat) (h : Heap ℝ) (b : Nat) (hb : b < h.next)
    (hn : arg ≠ .array b ∨ ∃ e, (init op arg r s h).1 = .error e) : (init op arg r s h).2.get b = h.get b := by
  have hp : (placeWeights op.terms.length h arg).2.get b = h.get b := by
    cases arg <;> simp [placeWeights, Nat.ne_of_lt hb]
  unfold init at hn ⊢
  by_cases h1 : (op.terms.all fun t => checkMat t.mat) = true
  · simp only [h1, if_true] at hn ⊢
    by_cases h2 : weightsOk op.terms.length
        ((placeWeights op.terms.length h arg).2.get (placeWeights op.terms.length h arg).1) = true
    · simp only [h2, if_true] at hn ⊢
      have hne : b ≠ (placeWeights op.terms.length h arg).1 := by
        rcases hn with hn | ⟨e, he⟩
        · cases arg with
          | default => exact Nat.ne_of_lt hb
          | list w => exact Nat.ne_of_lt hb
          | array a => intro e; apply hn; rw [e]; rfl
        · cases he
      simp only [Heap.set, if_neg hne, hp]
    · simp only [h2, Bool.false_eq_true, if_false]; exact hp
  · simp only [h1, Bool.false_eq_true, if_false]; exact hp

/-- C209: what holds: building a second kernel leaves the weights of the first one alone, unless it is given the very array that the first one uses. -/
theorem C209_second_partial (op op' : LOp ℝ α N) (arg arg' : Weights ℝ) (r s r' s' : Nat) (h : Heap ℝ) (k : Kernel ℝ)
    (hk : (init op arg r s h).1 = .ok k) (ha : ∀ a, arg = .array a → a < h.next) (hn : arg' ≠ .array k.weights) :
    (init op' arg' r' s' (init op arg r s h).2).2.get k.weights = (init op arg r s h).2.get k.weights := by
  refine C209_arrays_partial op' arg' r' s' _ k.weights ?_ (.inl hn)
  unfold init at hk ⊢
  by_cases h1 : (op.terms.all fun t => checkMat t.mat) = true
  · simp only [h1, if_true] at hk ⊢
    by_cases h2 : weightsOk op.terms.length
        ((placeWeights op.terms.length h arg).2.get (placeWeights op.terms.length h arg).1) = true
    · simp only [h2, if_true, Except.ok.injEq] at hk ⊢
      rw [← hk]
      cases arg with
      | default => simp [placeWeights, Heap.set]
      | list w => simp [placeWeights, Heap.set]
      | array a => simpa [placeWeights, Heap.set] using ha a rfl
    · simp [h2] at hk
  · simp [h1] at hk

theorem diag_nonneg (op : LOp ℝ α N) (hg : Good hi op) (hs : SortedSpace hi) (t : Term ℝ α N) (ht : t ∈ op.terms)
    (hm : SymStochastic t.mat.n t.mat.f) (x : Fin N → α) (hx : Valid hi x) : 0 ≤ t.diag (xsN hi t.acting x) := by
  have hf : Faithful hi t := hg.ok.terms t ht
  have hlt := lexIdx_lt x hx t.acting
  rw [← hf.dim] at hlt
  rw [xsN_eq hs x hx, hf.diag _ hlt]
  exact hm.nonneg _ hlt _ hlt

/-- C209: an operator with a constant of at least one is accepted, but the kernel then proposes to every chain the configuration it already has: the
    constant is counted as the probability of staying. (`σˣ + 1` should flip with every application of `σˣ`.) -/
theorem C209_constant_refuted (op : LOp ℝ α N) (hg : Good hi op) (hs : SortedSpace hi) (hc : 1 ≤ op.constant) (arg : Weights ℝ) (r0 s0 : Nat)
    (h : Heap ℝ) (k : Kernel ℝ) (hk : (init op arg r0 s0 h).1 = .ok k) (hpos : 0 < (meant op.terms.length h.get arg).sum)
    (s : Nat → ℝ) (h1 : ∀ i, s i < 1) (xs : List (Fin N → α)) (hx : ∀ x ∈ xs, Valid hi x) :
    (transition hi op k s xs).1 = .ok (xs.map some, List.replicate xs.length 0) := by
  rcases init_cases op arg r0 s0 h with ⟨e, hn⟩ | ⟨ht, e, hn⟩ | ⟨ht, hw, e⟩
  · rw [e] at hk; cases hk
  · rw [e] at hk; cases hk
  rw [e] at hk
  simp only [Except.ok.injEq] at hk
  set w := meant op.terms.length h.get arg with hwd
  set wl := w.map fun x => x / w.sum with hwl
  have hc' : k.cumulative = Verif.AutoReg.cumsum wl := by rw [← hk]
  have hl : k.randOp.length = k.sections.length := by rw [← hk]; rfl
  have hsum : wl.sum = 1 := Verif.Custom.normalized_sum w hpos
  have hnn : ∀ q ∈ wl, 0 ≤ q := Verif.Custom.normalized_nonneg w hw.2.2
  have hlen : wl.length = op.terms.length := by rw [hwl, List.length_map, hw.1]
  have hpick : ∀ u : ℝ, u < 1 → Verif.Custom.pickOp wl u < op.terms.length := by
    intro u hu
    rw [Verif.Custom.pickOp_eq wl hnn hsum, ← hlen]
    refine Verif.AutoReg.choice_lt wl hnn u (fun h => ?_) (by rw [hsum, one_mul]; exact hu.le)
    rw [h] at hsum; simp at hsum
  rw [(transition_eq (hi := hi) op k wl hc' hl s xs).1]
  -- rows
  have hrows : ∀ (us : List ℝ) (ys : List (Fin N → α)), us.length = ys.length → (∀ u ∈ us, u < 1) → (∀ y ∈ ys, Valid hi y) →
      ∃ rows, filteredFlat hi op (us.map (Verif.Custom.pickOp wl)) ys = .ok rows ∧ rows.length = ys.length ∧
        ∀ (i : Nat) rr y, rows[i]? = some rr → ys[i]? = some y → ∃ c rest, rr = (c, y) :: rest ∧ 1 ≤ c := by
    intro us ys
    induction ys generalizing us with
    | nil =>
      intro hul _ _
      have : us = [] := List.length_eq_zero_iff.1 hul
      subst this
      exact ⟨[], rfl, rfl, fun i rr y hr => by simp at hr⟩
    | cons y ys ih =>
      intro hul hu hv
      cases us with
      | nil => simp at hul
      | cons u us =>
        obtain ⟨rows, i1, i2, i3⟩ := ih us (by simpa using hul) (fun a ha => hu a (List.mem_cons_of_mem _ ha))
          fun a ha => hv a (List.mem_cons_of_mem _ ha)
        have hp := hpick u (hu u List.mem_cons_self)
        have htm : op.terms[Verif.Custom.pickOp wl u]? = some op.terms[Verif.Custom.pickOp wl u] := List.getElem?_eq_getElem hp
        obtain ⟨row, hrow, hf⟩ : ∃ row, row = ((op.constant + (op.terms[Verif.Custom.pickOp wl u]).diag
            (xsN hi (op.terms[Verif.Custom.pickOp wl u]).acting y), y)
            :: ((op.terms[Verif.Custom.pickOp wl u]).conn (xsN hi (op.terms[Verif.Custom.pickOp wl u]).acting y)).map
              fun p => (p.1, writeSites y (op.terms[Verif.Custom.pickOp wl u]).acting p.2)) ∧
            filteredRow hi op (Verif.Custom.pickOp wl u) y = .ok row := ⟨_, rfl, by rw [filteredRow, htm]⟩
        refine ⟨row :: rows, by simp only [List.map_cons, filteredFlat, hf, i1], by simp [i2], ?_⟩
        intro i rr z h2 h3
        cases i with
        | zero =>
          simp only [List.getElem?_cons_zero, Option.some.injEq] at h2 h3
          subst h2; subst h3
          refine ⟨_, _, hrow, ?_⟩
          have := diag_nonneg op hg hs _ (List.getElem_mem hp) (ht _ (List.getElem_mem hp)) y (hv y List.mem_cons_self)
          linarith
        | succ i => exact i3 i rr z h2 h3
  obtain ⟨rows, q1, q2, q3⟩ := hrows ((List.range xs.length).map s) xs (by simp)
    (by intro u hu; obtain ⟨i, _, rfl⟩ := List.mem_map.1 hu; exact h1 i) hx
  have hwalk : ∀ (i : Nat) p rr, ((List.range xs.length).map fun i => s (xs.length + i))[i]? = some p → rows[i]? = some rr →
      ∃ y, xs[i]? = some y ∧ Verif.Custom.walk p 0 rr = some y := by
    intro i p rr g1 g2
    have hi1 : i < xs.length := by rw [← q2]; exact (List.getElem?_eq_some_iff.1 g2).1
    obtain ⟨c, rest, rfl, hc1⟩ := q3 i rr xs[i] g2 (List.getElem?_eq_getElem hi1)
    refine ⟨xs[i], List.getElem?_eq_getElem hi1, ?_⟩
    obtain ⟨j, _, rfl⟩ := List.mem_map.1 (List.mem_of_getElem? g1)
    have := h1 (xs.length + j)
    simp only [Verif.Custom.walk, zero_add, gt_iff_lt]
    rw [if_neg (not_lt.2 (this.le.trans hc1))]
  have hch := Verif.Custom.choose_rows rows ((List.range xs.length).map fun i => s (xs.length + i)) []
    fun i p rr g1 g2 => by obtain ⟨y, _, hy⟩ := hwalk i p rr g1 g2; exact ⟨y, hy⟩
  simp only [List.nil_append, List.length_nil] at hch
  simp only [Verif.Custom.transition, q1, hch]
  congr 2
  refine List.ext_getElem? fun i => ?_
  by_cases hi1 : i < xs.length
  · have g2 : rows[i]? = some rows[i] := List.getElem?_eq_getElem (by omega)
    obtain ⟨y, hy1, hy2⟩ := hwalk i (s (xs.length + i)) rows[i] (by simp [hi1]) g2
    rw [List.getElem?_zipWith, g2, List.getElem?_map, List.getElem?_map, hy1, List.getElem?_range hi1]
    simp [hy2]
  · rw [List.getElem?_eq_none (by simp; omega), List.getElem?_eq_none (by simp; omega)]

/-- C209: two move operators with the same support cannot be given: `LocalOperator` adds their matrices, the sum is not stochastic, and the
    construction of the kernel fails whatever the weights are. -/
theorem C209_support_refuted (cut : Cutoff ℝ) (A B : Mat ℝ) (site : Fin N) (hi : Fin N → List α)
    (hsort : ∀ s, isSortedList (hi s) = true) (hA : SymStochastic A.n A.f) (hB : SymStochastic B.n B.f)
    (hAn : A.n = (hi site).length) (hBn : B.n = (hi site).length) (h0 : (hi site).length ≠ 0)
    (hcA : allSmall cut A = false) (hcB : allSmall cut B = false) :
    ∃ op, mk cut hi 0 [(A, [site]), (B, [site])] = .ok op ∧ op.terms.length = 1 ∧
      ∀ (arg : Weights ℝ) (r s : Nat) (h : Heap ℝ), (init op arg r s h).1 = .error .assertionError := by
  have hr : ∀ m : Mat ℝ, reorder hi m [site] = .ok (m, [site]) := fun m => by simp [reorder]
  refine ⟨refresh cut 0 [appendMatrix cut hi (addBlock A B) [site]], ?_, rfl, ?_⟩
  · rw [mk, if_pos (by rw [List.all_eq_true]; exact fun s _ => hsort s)]
    simp [addAll, addOperator, hcA, hcB, hr, addSorted, zeroOp, mergeTerm, dims, hAn, refresh, appendMatrix]
  · intro arg r s h
    refine (C208_reject _ arg r s h).1 ⟨_, List.mem_singleton.2 rfl, fun hsym => ?_⟩
    have h1 := hsym.row 0 (by simp [appendMatrix, addBlock, hAn]; omega)
    simp only [appendMatrix, addBlock, hAn, hBn, min_self] at h1
    have h2 := hA.row 0 (by omega)
    have h3 := hB.row 0 (by omega)
    rw [hAn] at h2
    rw [hBn] at h3
    have h4 : ∑ j ∈ Finset.range (hi site).length, (if 0 < (hi site).length ∧ j < (hi site).length then A.f 0 j + B.f 0 j else A.f 0 j)
        = ∑ j ∈ Finset.range (hi site).length, (A.f 0 j + B.f 0 j) :=
      Finset.sum_congr rfl fun j hj => if_pos ⟨by omega, Finset.mem_range.1 hj⟩
    rw [h4, Finset.sum_add_distrib, h2, h3] at h1
    norm_num at h1

end

/-! ### concrete cases -/

section examples
open Verif.Custom (exHi exOp exGood exSym)

/-- memory with the weights `1, 3` at address 0. -/
def exHeap : Heap ℝ := ⟨fun a => if a = 0 then [1, 3] else [], 1⟩

theorem exTerms : ∀ t ∈ exOp.terms, SymStochastic t.mat.n t.mat.f := by
  intro t ht
  simp only [exOp, List.mem_cons, List.not_mem_nil, or_false] at ht
  rcases ht with rfl | rfl <;> exact exSym

example : ∃ k, Built exHi exOp (.array 0) exHeap k := by
  obtain ⟨k, hk⟩ := (C208_accept exOp (.array 0) 0 0 exHeap).2 ⟨by simp [exOp], exTerms, by simp [meant, exHeap, exOp],
    by simp [meant, exHeap]⟩
  exact ⟨k, fun s => by simp [exHi], exGood, rfl, ⟨0, 0, hk⟩, by simp [meant, exHeap]; norm_num⟩

/-- the array `1, 3` of the caller is changed. -/
example : (init exOp (.array 0) 0 0 exHeap).2.get 0 ≠ [1, 3] := by
  obtain ⟨k, hk⟩ := (C208_accept exOp (.array 0) 0 0 exHeap).2 ⟨by simp [exOp], exTerms, by simp [meant, exHeap, exOp],
    by simp [meant, exHeap]⟩
  have := (C209_weights_refuted exOp 0 0 0 exHeap k hk).2 (by simp [exHeap]; norm_num) (by simp [exHeap])
  simpa [exHeap] using this

/-- a second kernel with a list of weights does not disturb the one built from the array. -/
example : ∃ k, (init exOp (.array 0) 0 0 exHeap).1 = .ok k ∧ (Weights.list [1, 1] : Weights ℝ) ≠ .array k.weights ∧ 0 < exHeap.next := by
  obtain ⟨k, hk⟩ := (C208_accept exOp (.array 0) 0 0 exHeap).2 ⟨by simp [exOp], exTerms, by simp [meant, exHeap, exOp],
    by simp [meant, exHeap]⟩
  exact ⟨k, hk, by simp, by simp [exHeap]⟩

/-- the operator of the example with the constant one satisfies the hypotheses of `C209_constant_refuted`. -/
example : Good exHi { exOp with constant := 1 } ∧ (1 : ℝ) ≤ ({ exOp with constant := 1 } : LOp ℝ Int 2).constant ∧
    ∃ k, (init { exOp with constant := 1 } .default 0 0 exHeap).1 = .ok k := by
  refine ⟨⟨⟨exGood.shape.1, exGood.shape.2, exGood.shape.3⟩, ⟨exGood.ok.terms, fun h => by simp [exOp] at h⟩⟩, le_refl _, ?_⟩
  exact (C208_accept _ .default 0 0 exHeap).2 ⟨by simp [exOp], exTerms, by simp [meant, exOp], by simp [meant]⟩

/-- the flip and the refresh of one spin satisfy the hypotheses of `C209_support_refuted`. -/
example : ∃ op, mk Verif.Custom.exCut exHi 0 [(⟨2, fun i j => if i = j then 0 else 1⟩, [0]), (⟨2, fun _ _ => 1 / 2⟩, [0])] = .ok op ∧
    op.terms.length = 1 ∧ ∀ (arg : Weights ℝ) (r s : Nat) (h : Heap ℝ), (init op arg r s h).1 = .error .assertionError := by
  refine C209_support_refuted Verif.Custom.exCut _ _ (0 : Fin 2) exHi (fun s => by simp [exHi, isSortedList]) ⟨?_, ?_, ?_⟩ exSym rfl rfl
    (by simp [exHi]) ?_ ?_
  · intro i _ j _
    show (0 : ℝ) ≤ if i = j then 0 else 1
    split <;> norm_num
  · intro i hi
    have : i = 0 ∨ i = 1 := by have : i < 2 := hi; omega
    rcases this with rfl | rfl <;> simp [Finset.sum_range_succ]
  · intro i _ j _
    show (if i = j then (0 : ℝ) else 1) = if j = i then 0 else 1
    simp only [eq_comm]
  · simp [allSmall, Verif.Custom.exCut, List.range_succ]
  · simp [allSmall, Verif.Custom.exCut, List.range_succ]

end examples

end Verif.LegacyCustom
