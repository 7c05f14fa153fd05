import Verif.Lemmas.Pair

/-! Properties C03 (TensorHilbert), C04 (DoubledHilbert), C05 (rejection of bad numbers/states). -/

namespace Verif.Hilbert

variable {α : Type}

/-! ### C03 -/

/-- mixed-radix value of the factor indices `is` (first factor most significant). -/
def mixedRadix : List Nat → List Nat → Nat
  | _ :: ds, i :: is => i * ds.prod + mixedRadix ds is
  | _, _ => 0

/-- C03: a product of indexed spaces (of any kind, any number, nested or not) numbers exactly the
    concatenations of valid configurations, bijectively and lexicographically. -/
theorem C03_tensor_indexing [LinearOrder α] (ps : List (Disc α × (List α → Prop)))
    (hps : ∀ p ∈ ps, Indexes p.1 p.2) :
    Indexes (tensor (ps.map Prod.fst)) (ValidTensor ps) := by
  induction ps with
  | nil =>
    constructor
    · rintro σ rfl; rfl
    · intro n hn
      have hn0 : n = 0 := by simpa [tensor] using hn
      subst hn0
      exact ⟨[], rfl, rfl, rfl⟩
    · rintro σ rfl
      exact ⟨0, by simp [tensor], rfl, rfl⟩
    · rintro σ τ m n rfl rfl hm hn
      rw [hm] at hn
      rw [Except.ok.inj hn]
      simp
  | cons p ps ih =>
    have i1 := hps p List.mem_cons_self
    have i2 := ih fun q hq => hps q (List.mem_cons_of_mem _ hq)
    refine pair_indexes i1 i2 rfl rfl ?_ ?_
    · intro n hn a b ha hb
      exact tensor_toState_cons _ _ n a b hn ha hb
    · intro a b m k ha hb hm hk
      exact tensor_toNum_cons _ _ a b m k (i1.size a ha) (i2.size b hb) hm hk

/-- C03: the index of a concatenation is the mixed-radix combination of the factor indices. -/
theorem C03_tensor_mixed_radix [LinearOrder α] (fs : List ((Disc α × (List α → Prop)) × List α × Nat))
    (hi : ∀ f ∈ fs, Indexes f.1.1 f.1.2)
    (hv : ∀ f ∈ fs, f.1.2 f.2.1 ∧ f.1.1.statesToNumbers f.2.1 = .ok f.2.2) :
    (tensor (fs.map fun f => f.1.1)).statesToNumbers (fs.map fun f => f.2.1).flatten =
      .ok (mixedRadix (fs.map fun f => f.1.1.nStates) (fs.map fun f => f.2.2)) := by
  induction fs with
  | nil => rfl
  | cons f fs ih =>
    have hf := hv f List.mem_cons_self
    have hl : (fs.map fun f => f.2.1).flatten.length = (tensor (fs.map fun f => f.1.1)).size := by
      simp only [List.length_flatten, tensor, List.map_map]
      congr 1
      apply List.map_congr_left
      intro g hg
      exact (hi g (List.mem_cons_of_mem _ hg)).size _ (hv g (List.mem_cons_of_mem _ hg)).1
    have := tensor_toNum_cons f.1.1 (fs.map fun f => f.1.1) f.2.1 (fs.map fun f => f.2.1).flatten
      f.2.2 _ ((hi f List.mem_cons_self).size _ hf.1) hl hf.2
      (ih (fun g hg => hi g (List.mem_cons_of_mem _ hg)) (fun g hg => hv g (List.mem_cons_of_mem _ hg)))
    simp only [List.map_cons, List.flatten_cons, this, mixedRadix]
    simp only [tensor, List.map_map, Function.comp_def]

example : Indexes (tensor [homog [1, (-1 : Int)] 2, homogConstrained [0, 1, 2] 2 (fun σ => σ.sum == 2),
      homog [0, 1, 2] 1])
    (ValidTensor [(homog [1, -1] 2, ValidHomog [1, -1] 2),
      (homogConstrained [0, 1, 2] 2 (fun σ => σ.sum == 2),
        fun σ => ValidHomog [0, 1, 2] 2 σ ∧ (σ.sum == 2) = true),
      (homog [0, 1, 2] 1, ValidHomog [0, 1, 2] 1)]) := by
  refine C03_tensor_indexing [(homog [1, -1] 2, ValidHomog [1, -1] 2),
      (homogConstrained [0, 1, 2] 2 (fun σ => σ.sum == 2),
        fun σ => ValidHomog [0, 1, 2] 2 σ ∧ (σ.sum == 2) = true),
      (homog [0, 1, 2] 1, ValidHomog [0, 1, 2] 1)] ?_
  intro p hp
  simp only [List.mem_cons, List.not_mem_nil, or_false] at hp
  rcases hp with rfl | rfl | rfl
  · exact C01_homogeneous_indexing _ (by decide) (by decide) _
  · exact C02_constrained_indexing _ (by decide) (by decide) _ _
  · exact C01_homogeneous_indexing _ (by decide) (by decide) _

example : (tensor [homog [1, (-1 : Int)] 2, homog [0, 1, 2] 1]).statesToNumbers ([1, -1] ++ [2]) =
    .ok (mixedRadix [4, 3] [2, 2]) := by decide +kernel

/-! ### C04 -/

/-- C04: the doubled space numbers the pairs (row, column) bijectively and lexicographically. -/
theorem C04_doubled_indexing [LinearOrder α] (k : ShapeKind) (h : Disc α) (valid : List α → Prop)
    (hi : Indexes h valid) : Indexes (doubled k h) (ValidDoubled valid) := by
  refine pair_indexes hi hi (by simp [doubled]; omega) (by simp [doubled]; ring) ?_ ?_
  · intro n hn a b ha hb
    rw [numbersToStates_ok _ _ hn]
    simp only [doubled]
    rw [show (n : Int) / (h.nStates : Int) = ((n / h.nStates : Nat) : Int) from by norm_cast,
      show (n : Int) % (h.nStates : Int) = ((n % h.nStates : Nat) : Int) from by norm_cast, ha, hb]
    rfl
  · intro a b m k' ha hb hm hk
    have la := hi.size a ha
    have lb := hi.size b hb
    rw [statesToNumbers_ok _ _ (by simp [doubled, la, lb]; omega)]
    rw [statesToNumbers_ok _ _ la] at hm
    rw [statesToNumbers_ok _ _ lb] at hk
    simp only [doubled]
    rw [← la, List.take_left, List.drop_left, la, ← lb, List.take_length, hm, hk]
    simp only [bind, Except.bind, pure, Except.pure]
    rw [Nat.add_comm]

/-- C04: `index = row * n_states + column`. -/
theorem C04_doubled_index [LinearOrder α] (k : ShapeKind) (h : Disc α) (valid : List α → Prop)
    (hi : Indexes h valid) (a b : List α) (m n : Nat) (ha : valid a) (hb : valid b)
    (hm : h.statesToNumbers a = .ok m) (hn : h.statesToNumbers b = .ok n) :
    (doubled k h).statesToNumbers (a ++ b) = .ok (m * h.nStates + n) := by
  have la := hi.size a ha
  have lb := hi.size b hb
  rw [statesToNumbers_ok _ _ (by simp [doubled, la, lb]; omega)]
  rw [statesToNumbers_ok _ _ la] at hm
  rw [statesToNumbers_ok _ _ lb] at hn
  simp only [doubled]
  rw [← la, List.take_left, List.drop_left, la, ← lb, List.take_length, hm, hn]
  simp only [bind, Except.bind, pure, Except.pure]
  rw [Nat.add_comm]

/-- C04: both halves are recovered by `numbers_to_states`. -/
theorem C04_doubled_halves [LinearOrder α] (k : ShapeKind) (h : Disc α) (valid : List α → Prop)
    (hi : Indexes h valid) (r c : Nat) (hr : r < h.nStates) (hc : c < h.nStates) :
    ∃ a b, h.numbersToStates r = .ok a ∧ h.numbersToStates c = .ok b ∧
      (doubled k h).numbersToStates (r * h.nStates + c : Nat) = .ok (a ++ b) := by
  obtain ⟨a, a1, a2, a3⟩ := hi.toState r hr
  obtain ⟨b, b1, b2, b3⟩ := hi.toState c hc
  refine ⟨a, b, a1, b1, ?_⟩
  have e := C04_doubled_index k h valid hi a b r c a2 b2 a3 b3
  obtain ⟨n, _, e1, e2⟩ := (C04_doubled_indexing k h valid hi).toNum (a ++ b) ⟨a, b, a2, b2, rfl⟩
  rw [e] at e1
  rw [Except.ok.inj e1, e2]

/-- the local dimension clause of C04, for what `doubled.shape` reports. -/
def ShapeDoubled (h d : Disc α) : Prop :=
  ∀ i, i < 2 * h.size → d.shape[i]? = h.shape[i % h.size]?

/-- C101 (shape, physical space whose `shape` is a tuple: all homogeneous spaces). -/
theorem C101_shape_tuple_partial (h : Disc α) (hs : h.shape.length = h.size) :
    ShapeDoubled h (doubled .tuple h) := by
  intro i hi
  simp only [doubled, shapeTimesTwo]
  by_cases h1 : i < h.size
  · rw [List.getElem?_append_left (by omega), Nat.mod_eq_of_lt h1]
  · rw [List.getElem?_append_right (by omega), hs, Nat.mod_eq_sub_mod (by omega),
      Nat.mod_eq_of_lt (by omega)]

/-- C101 refuted: the `shape` of a doubled TensorHilbert (an ndarray doubled elementwise) is wrong. -/
theorem C101_shape_ndarray_refuted :
    ¬ ∀ h : Disc Int, h.shape.length = h.size → ShapeDoubled h (doubled .ndarray h) := by
  intro H
  have := H (tensor [homog [0, 1] 1, homog [0, 1, 2] 1]) rfl 0 (by decide)
  revert this
  decide +kernel

/-- C04: `size_at_index` is right for every physical space. -/
theorem C04_size_at_index (h : Disc α) (i : Nat) (hi : i < 2 * h.size) :
    doubledSizeAtIndex h i = h.shape[i % h.size]? := by
  unfold doubledSizeAtIndex
  by_cases h1 : i < h.size
  · rw [if_pos h1, Nat.mod_eq_of_lt h1]
  · rw [if_neg h1, Nat.mod_eq_sub_mod (by omega), Nat.mod_eq_of_lt (by omega)]

example : ShapeDoubled (homog [0, (1 : Int)] 3) (doubled .tuple (homog [0, 1] 3)) :=
  C101_shape_tuple_partial _ rfl
example : (doubled .tuple (homog [1, (-1 : Int)] 2)).statesToNumbers ([1, -1] ++ [-1, 1]) =
    .ok (2 * 4 + 1) :=
  C04_doubled_index _ _ _ (C01_homogeneous_indexing [1, -1] (by decide) (by decide) 2) _ _ 2 1
    ⟨rfl, by decide⟩ ⟨rfl, by decide⟩ (by decide +kernel) (by decide +kernel)
example : doubledSizeAtIndex (tensor [homog [0, (1 : Int)] 1, homog [0, 1, 2] 1]) 3 = some 3 := by
  rw [C04_size_at_index _ _ (by decide)]; decide +kernel

/-! ### C05 -/

/-- the rejection property for numbers. -/
def RejectsBadNumbers (h : Disc α) : Prop :=
  ∀ n : Int, (n < 0 ∨ (h.nStates : Int) ≤ n) → ∃ e, h.numbersToStates n = .error e

/-- C05 (upper bound and lengths; negative numbers are refuted below): for every discrete space,
    numbers `≥ n_states` and configurations of the wrong length raise `ValueError`. -/
theorem C05_rejection (h : Disc α) :
    (∀ n : Int, (h.nStates : Int) ≤ n → h.numbersToStates n = .error .valueError) ∧
    (∀ σ : List α, σ.length ≠ h.size → h.statesToNumbers σ = .error .valueError) := by
  constructor
  · intro n hn
    simp [Disc.numbersToStates, hn]
  · intro σ hσ
    simp [Disc.statesToNumbers, hσ]

/-- C100 refuted: `numbers_to_states(-1)` of an unconstrained space returns a state. -/
theorem C100_negative_refuted : ¬ RejectsBadNumbers (homog [0, (1 : Int)] 2) := by
  intro h
  obtain ⟨e, he⟩ := h (-1) (.inl (by decide))
  have : (homog [0, (1 : Int)] 2).numbersToStates (-1) = .ok [0, 0] := by decide +kernel
  rw [this] at he
  cases he

/-- C100: every negative number is accepted by an unconstrained space, as the number 0. -/
theorem C100_negative_is_zero [LinearOrder α] (ls : List α) (hne : ls ≠ []) (N : Nat) (n : Int)
    (hn : n < 0) :
    (homog ls N).numbersToStates n = (homog ls N).numbersToStates 0 := by
  have hpos : 0 < (homog ls N).nStates := by
    rw [C01_n_states]; exact Nat.pow_pos (List.length_pos_of_ne_nil hne)
  unfold Disc.numbersToStates
  rw [if_neg (by omega), if_neg (by omega)]
  simp [homog, Int.toNat_of_nonpos (by omega : n ≤ 0)]

/-- C100: a constrained space accepts `-k` (`1 ≤ k ≤ n_states`) as `n_states - k`. -/
theorem C100_negative_wraps [LinearOrder α] (ls : List α) (N : Nat) (c : List α → Bool) (k : Nat)
    (hk : 1 ≤ k) (hk' : k ≤ (homogConstrained ls N c).nStates) :
    (homogConstrained ls N c).numbersToStates (-(k : Int)) =
      (homogConstrained ls N c).numbersToStates
        (((homogConstrained ls N c).nStates - k : Nat) : Int) := by
  rw [numbersToStates_ok _ _ (by omega)]
  unfold Disc.numbersToStates
  rw [if_neg (by omega)]
  have h1 : pyIndex (bareNumbers ls N c) (-(k : Int)) =
      pyIndex (bareNumbers ls N c) (((bareNumbers ls N c).length - k : Nat) : Int) := by
    have : k ≤ (bareNumbers ls N c).length := hk'
    unfold pyIndex
    rw [if_neg (by omega), if_pos (by omega), if_pos (by omega)]
    congr 2
    omega
  simp only [homogConstrained, h1]

example : (homog [0, (1 : Int)] 2).numbersToStates 4 = .error .valueError :=
  (C05_rejection _).1 4 (by decide)
example : (homogConstrained [0, (1 : Int)] 2 (fun σ => σ.sum == 1)).numbersToStates (-(1 : Nat) : Int)
    = .ok [1, 0] := by
  rw [C100_negative_wraps _ _ _ 1 (by decide) (by decide +kernel)]; decide +kernel

end Verif.Hilbert
