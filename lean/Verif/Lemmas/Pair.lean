import Verif.Props.Hilbert

/-! Helper: indexing of a product of two indexed spaces. -/

namespace Verif.Hilbert

variable {α : Type}

theorem append_lt_append_iff [LinearOrder α] {a a' b b' : List α} (h : a.length = a'.length) :
    a ++ b < a' ++ b' ↔ a < a' ∨ (a = a' ∧ b < b') := by
  induction a generalizing a' with
  | nil =>
    cases a' with
    | nil => simp
    | cons _ _ => simp at h
  | cons x xs ih =>
    cases a' with
    | nil => simp at h
    | cons y ys =>
      simp only [List.cons_append, List.cons_lt_cons_iff, List.cons.injEq]
      rw [ih (by simpa using h)]
      constructor
      · rintro (h1 | ⟨rfl, h1 | ⟨rfl, h1⟩⟩)
        · exact .inl (.inl h1)
        · exact .inl (.inr ⟨rfl, h1⟩)
        · exact .inr ⟨⟨rfl, rfl⟩, h1⟩
      · rintro ((h1 | ⟨rfl, h1⟩) | ⟨⟨rfl, rfl⟩, h1⟩)
        · exact .inl h1
        · exact .inr ⟨rfl, .inl h1⟩
        · exact .inr ⟨rfl, .inr ⟨rfl, h1⟩⟩

theorem pair_lt_iff {p a a' b b' : Nat} (hb : b < p) (hb' : b' < p) :
    a * p + b < a' * p + b' ↔ a < a' ∨ (a = a' ∧ b < b') := by
  rcases Nat.lt_trichotomy a a' with h | h | h
  · have : (a + 1) * p ≤ a' * p := Nat.mul_le_mul_right _ h
    rw [Nat.add_mul] at this
    constructor
    · intro _; exact .inl h
    · intro _; omega
  · subst h; simp
  · have : (a' + 1) * p ≤ a * p := Nat.mul_le_mul_right _ h
    rw [Nat.add_mul] at this
    constructor
    · intro _; omega
    · rintro (h1 | ⟨h1, _⟩) <;> omega

/-- If `h` splits numbers by `divmod n2` and configurations by position, it indexes the
    concatenations. -/
theorem pair_indexes [LinearOrder α] {h h1 h2 : Disc α} {v1 v2 : List α → Prop}
    (i1 : Indexes h1 v1) (i2 : Indexes h2 v2)
    (hsize : h.size = h1.size + h2.size) (hn : h.nStates = h1.nStates * h2.nStates)
    (hto : ∀ n, n < h.nStates → ∀ a b, h1.numbersToStates (n / h2.nStates : Nat) = .ok a →
      h2.numbersToStates (n % h2.nStates : Nat) = .ok b → h.numbersToStates n = .ok (a ++ b))
    (hnum : ∀ a b m k, v1 a → v2 b → h1.statesToNumbers a = .ok m → h2.statesToNumbers b = .ok k →
      h.statesToNumbers (a ++ b) = .ok (m * h2.nStates + k)) :
    Indexes h (fun σ => ∃ a b, v1 a ∧ v2 b ∧ σ = a ++ b) := by
  constructor
  · rintro σ ⟨a, b, ha, hb, rfl⟩
    rw [List.length_append, i1.size a ha, i2.size b hb, hsize]
  · intro n hlt
    have hpos : 0 < h2.nStates := by
      rcases Nat.eq_zero_or_pos h2.nStates with h0 | h0
      · rw [hn, h0] at hlt; simp at hlt
      · exact h0
    have hl : n / h2.nStates < h1.nStates := (Nat.div_lt_iff_lt_mul hpos).2 (hn ▸ hlt)
    have hr : n % h2.nStates < h2.nStates := Nat.mod_lt _ hpos
    obtain ⟨a, a1, a2, a3⟩ := i1.toState _ hl
    obtain ⟨b, b1, b2, b3⟩ := i2.toState _ hr
    refine ⟨a ++ b, hto n hlt a b a1 b1, ⟨a, b, a2, b2, rfl⟩, ?_⟩
    rw [hnum a b _ _ a2 b2 a3 b3, Nat.mul_comm, Nat.div_add_mod]
  · rintro σ ⟨a, b, ha, hb, rfl⟩
    obtain ⟨m, m1, m2, m3⟩ := i1.toNum a ha
    obtain ⟨k, k1, k2, k3⟩ := i2.toNum b hb
    have hlt : m * h2.nStates + k < h.nStates := by
      have : (m + 1) * h2.nStates ≤ h1.nStates * h2.nStates := Nat.mul_le_mul_right _ m1
      rw [Nat.add_mul] at this
      omega
    refine ⟨_, hlt, hnum a b m k ha hb m2 k2, ?_⟩
    have hpos : 0 < h2.nStates := by omega
    apply hto _ hlt
    · rw [Nat.mul_comm, Nat.mul_add_div hpos, Nat.div_eq_of_lt k1, Nat.add_zero]
      exact m3
    · rw [Nat.mul_comm, Nat.mul_add_mod, Nat.mod_eq_of_lt k1]
      exact k3
  · rintro σ τ m n ⟨a, b, ha, hb, rfl⟩ ⟨a', b', ha', hb', rfl⟩ hm hn'
    obtain ⟨p, _, p2, _⟩ := i1.toNum a ha
    obtain ⟨q, q1, q2, _⟩ := i2.toNum b hb
    obtain ⟨p', _, p2', _⟩ := i1.toNum a' ha'
    obtain ⟨q', q1', q2', _⟩ := i2.toNum b' hb'
    rw [hnum a b p q ha hb p2 q2] at hm
    rw [hnum a' b' p' q' ha' hb' p2' q2'] at hn'
    rw [← Except.ok.inj hm, ← Except.ok.inj hn', pair_lt_iff q1 q1',
      append_lt_append_iff (by rw [i1.size a ha, i1.size a' ha']),
      i1.order a a' p p' ha ha' p2 p2', i2.order b b' q q' hb hb' q2 q2']
    have : p = p' ↔ a = a' := by
      constructor
      · rintro rfl
        obtain ⟨_, _, e1, e2⟩ := i1.toNum a ha
        obtain ⟨_, _, e1', e2'⟩ := i1.toNum a' ha'
        rw [p2] at e1; rw [p2'] at e1'
        have := Except.ok.inj e1; subst this
        have := Except.ok.inj e1'; subst this
        rw [e2] at e2'
        exact Except.ok.inj e2'
      · rintro rfl
        rw [p2] at p2'
        exact Except.ok.inj p2'
    rw [this]

/-! ### the tensor loops, factor by factor -/

theorem tensorToState_snoc (l : List (Disc α)) (h : Disc α) (n : Int) (out : List α) :
    tensorToState (l ++ [h]) n out =
      (do let s ← tensorToState l n out
          let t ← h.numbersToStates ((n / ((l.map Disc.nStates).prod : Nat)) % (h.nStates : Int))
          pure (t ++ s)) := by
  induction l generalizing n out with
  | nil =>
    simp only [List.nil_append, tensorToState, List.map_nil, List.prod_nil, Nat.cast_one,
      Int.ediv_one, bind, Except.bind, pure, Except.pure]
  | cons g l ih =>
    simp only [List.cons_append, tensorToState, ih, List.map_cons, List.prod_cons]
    cases hg : g.numbersToStates (n % (g.nStates : Int)) with
    | error e => rfl
    | ok s =>
      simp only [bind, Except.bind]
      congr 1
      funext s'
      rw [Nat.cast_mul, Int.ediv_ediv_of_nonneg (by omega)]

theorem tensorToState_out (l : List (Disc α)) (n : Int) (out : List α) :
    tensorToState l n out = (tensorToState l n []).map (· ++ out) := by
  induction l generalizing n out with
  | nil => simp [tensorToState, Except.map]
  | cons h l ih =>
    simp only [tensorToState]
    cases h.numbersToStates (n % (h.nStates : Int)) with
    | error e => rfl
    | ok s =>
      simp only [bind, Except.bind]
      rw [ih, ih _ (s ++ [])]
      cases tensorToState l (n / (h.nStates : Int)) [] <;> simp [Except.map]

theorem tensorToState_mod (l : List (Disc α)) (n : Nat) (out : List α) :
    tensorToState l (n : Int) out =
      tensorToState l ((n % (l.map Disc.nStates).prod : Nat) : Int) out := by
  induction l generalizing n out with
  | nil => rfl
  | cons h l ih =>
    simp only [tensorToState, List.map_cons, List.prod_cons]
    have e1 : ((n % (h.nStates * (l.map Disc.nStates).prod) : Nat) : Int) % (h.nStates : Int)
        = (n : Int) % (h.nStates : Int) := by
      norm_cast
      rw [Nat.mod_mul_right_mod]
    have e2 : ((n % (h.nStates * (l.map Disc.nStates).prod) : Nat) : Int) / (h.nStates : Int)
        = ((n / h.nStates % (l.map Disc.nStates).prod : Nat) : Int) := by
      norm_cast
      rw [Nat.mod_mul_right_div_self]
    rw [e1, e2]
    congr 1
    funext s
    rw [show ((n : Int) / (h.nStates : Int)) = ((n / h.nStates : Nat) : Int) from by norm_cast, ih]

/-- `numbers_to_states` of a product, first factor split off. -/
theorem tensor_toState_cons (h : Disc α) (hs : List (Disc α)) (n : Nat) (a b : List α)
    (hn : n < (tensor (h :: hs)).nStates)
    (ha : h.numbersToStates (n / (tensor hs).nStates : Nat) = .ok a)
    (hb : (tensor hs).numbersToStates (n % (tensor hs).nStates : Nat) = .ok b) :
    (tensor (h :: hs)).numbersToStates n = .ok (a ++ b) := by
  have hn' : n < h.nStates * (tensor hs).nStates := by simpa [tensor] using hn
  have hpos : 0 < (tensor hs).nStates := by
    rcases Nat.eq_zero_or_pos (tensor hs).nStates with h0 | h0
    · rw [h0] at hn'; simp at hn'
    · exact h0
  rw [numbersToStates_ok _ _ hn]
  rw [numbersToStates_ok _ _ (Nat.mod_lt _ hpos)] at hb
  have hprod : ((hs.reverse.map Disc.nStates).prod : Nat) = (tensor hs).nStates := by
    simp [tensor, List.prod_reverse]
  simp only [tensor, List.reverse_cons] at hb ⊢
  rw [tensorToState_snoc, tensorToState_mod, hprod]
  rw [show (hs.map Disc.nStates).prod = (tensor hs).nStates from rfl] at hb
  rw [hb]
  have hq : n / (tensor hs).nStates < h.nStates := (Nat.div_lt_iff_lt_mul hpos).2 hn'
  have e : ((n : Int) / ((tensor hs).nStates : Nat)) % (h.nStates : Int)
      = ((n / (tensor hs).nStates : Nat) : Int) := by
    norm_cast
    exact Nat.mod_eq_of_lt hq
  simp only [bind, Except.bind, e, ha, pure, Except.pure]

theorem tensorToNum_out (σ : List α) (hs : List (Disc α)) (ws : List Nat) (off out : Nat) :
    tensorToNum σ hs ws off out = (tensorToNum σ hs ws off 0).map (out + ·) := by
  induction hs generalizing ws off out with
  | nil => simp [tensorToNum, Except.map]
  | cons h hs ih =>
    cases ws with
    | nil => simp [tensorToNum, Except.map]
    | cons w ws =>
      simp only [tensorToNum]
      cases h.statesToNumbers (List.take h.size (List.drop off σ)) with
      | error e => rfl
      | ok t =>
        simp only [bind, Except.bind]
        rw [ih, ih _ _ (0 + t * w)]
        cases tensorToNum σ hs ws (off + h.size) 0 with
        | error e => rfl
        | ok k => simp only [Except.map]; congr 1; omega

theorem tensorToNum_shift (a σ : List α) (hs : List (Disc α)) (ws : List Nat) (off out : Nat) :
    tensorToNum (a ++ σ) hs ws (a.length + off) out = tensorToNum σ hs ws off out := by
  induction hs generalizing ws off out with
  | nil => simp [tensorToNum]
  | cons h hs ih =>
    cases ws with
    | nil => simp [tensorToNum]
    | cons w ws =>
      simp only [tensorToNum]
      have hd : (a ++ σ).drop (a.length + off) = σ.drop off := by
        rw [List.drop_append]; simp
      rw [hd]
      congr 1
      funext t
      rw [Nat.add_assoc, ih]

/-- `states_to_numbers` of a product, first factor split off. -/
theorem tensor_toNum_cons (h : Disc α) (hs : List (Disc α)) (a b : List α) (m k : Nat)
    (ha : a.length = h.size) (hb : b.length = (tensor hs).size)
    (hm : h.statesToNumbers a = .ok m) (hk : (tensor hs).statesToNumbers b = .ok k) :
    (tensor (h :: hs)).statesToNumbers (a ++ b) = .ok (m * (tensor hs).nStates + k) := by
  rw [statesToNumbers_ok _ _ hb] at hk
  rw [statesToNumbers_ok _ _ (by simp [tensor, ha, hb] )]
  simp only [tensor, List.map_cons, cumNsStatesR_cons, tensorToNum] at hk ⊢
  have ht : ((a ++ b).drop 0).take h.size = a := by
    rw [List.drop_zero, ← ha, List.take_left]
  rw [ht, hm]
  simp only [bind, Except.bind]
  have := tensorToNum_shift a b hs (cumNsStatesR (hs.map Disc.nStates)) 0
    (0 + m * (hs.map Disc.nStates).prod)
  rw [ha] at this
  rw [Nat.zero_add h.size, ← Nat.add_zero h.size, this, tensorToNum_out, hk]
  simp [Except.map]

end Verif.Hilbert
