import Verif.Props.LegacySampler
import Mathlib.Tactic.FieldSimp
import Mathlib.Algebra.Order.BigOperators.Group.List

/-! C175, C176: replica exchange and exact sampling of `netket.legacy.sampler`. -/

namespace Verif.Legacy

open Verif.Hilbert (Err)

set_option linter.unusedSectionVars false

theorem swapAt_eq {α : Type} (f : Nat → α) (i j : Nat) : swapAt f i j = f ∘ Equiv.swap i j := by
  funext k
  simp only [swapAt, Function.comp, Equiv.swap_apply_def]
  by_cases h1 : k = j
  · subst h1
    by_cases h2 : k = i
    · subst h2; simp
    · simp [h2]
  · by_cases h2 : k = i
    · subst h2; simp [h1]
    · simp [h1, h2]

theorem evens_lt (order n i : Nat) (h : i ∈ evens order n) : i < n ∧ ∃ k, i = order + 2 * k := by
  simp only [evens, List.mem_map, List.mem_range] at h
  obtain ⟨k, hk, rfl⟩ := h
  exact ⟨by omega, k, rfl⟩

theorem partner_lt (n i : Nat) (h : i < n) : partner n i < n := Nat.mod_lt _ (by omega)

theorem partner_eq (n i : Nat) (h : i < n) : partner n i = if i + 1 = n then 0 else i + 1 := by
  simp only [partner]
  split
  · next e => rw [e, Nat.mod_self]
  · exact Nat.mod_eq_of_lt (by omega)

/-- a rearrangement of the replicas `0 … n-1`. -/
def Rearr (n : Nat) (π : Equiv.Perm Nat) : Prop := ∀ k, π k < n ↔ k < n

theorem exchangeOne_rearr (n : Nat) (p : Pt ℝ) (i : Nat) (u : ℝ) (hi : i < n) :
    ∃ π, Rearr n π ∧ (exchangeOne n p i u).beta = p.beta ∘ π ∧ (exchangeOne n p i u).acc = p.acc ∘ π ∧
      π (exchangeOne n p i u).pos = p.pos := by
  have hj := partner_lt n i hi
  simp only [exchangeOne]
  by_cases h : p.prob i * p.prob (partner n i) > u
  · rw [if_pos h]
    refine ⟨Equiv.swap i (partner n i), ?_, swapAt_eq _ _ _, swapAt_eq _ _ _, ?_⟩
    · intro k
      rw [Equiv.swap_apply_def]
      split
      · next e => subst e; exact ⟨fun _ => hi, fun _ => hj⟩
      · split
        · next e => subst e; exact ⟨fun _ => hj, fun _ => hi⟩
        · exact Iff.rfl
    · simp only
      by_cases h1 : p.pos = i
      · rw [if_pos h1, Equiv.swap_apply_right, h1]
      · rw [if_neg h1]
        by_cases h2 : p.pos = partner n i
        · rw [if_pos h2, Equiv.swap_apply_left, h2]
        · rw [if_neg h2, Equiv.swap_apply_of_ne_of_ne h1 h2]
  · rw [if_neg h]
    exact ⟨1, fun k => Iff.rfl, rfl, rfl, rfl⟩

theorem exchangeLoop_rearr (n : Nat) (is : List Nat) (us : List ℝ) (p : Pt ℝ) (hi : ∀ i ∈ is, i < n) :
    ∃ π, Rearr n π ∧ (exchangeLoop n is us p).beta = p.beta ∘ π ∧ (exchangeLoop n is us p).acc = p.acc ∘ π ∧
      π (exchangeLoop n is us p).pos = p.pos := by
  induction is generalizing us p with
  | nil => exact ⟨1, fun k => Iff.rfl, rfl, rfl, rfl⟩
  | cons i is ih =>
    cases us with
    | nil => exact ⟨1, fun k => Iff.rfl, rfl, rfl, rfl⟩
    | cons u us =>
      obtain ⟨π, a, b, c, d⟩ := exchangeOne_rearr n p i u (hi i (by simp))
      obtain ⟨π', a', b', c', d'⟩ := ih us (exchangeOne n p i u) (fun j hj => hi j (by simp [hj]))
      refine ⟨π * π', fun k => ?_, ?_, ?_, ?_⟩
      · rw [Equiv.Perm.mul_apply, a, a']
      · simp only [exchangeLoop]; rw [b', b]; rfl
      · simp only [exchangeLoop]; rw [c', c]; rfl
      · simp only [exchangeLoop]; rw [Equiv.Perm.mul_apply, d', d]

/-- C175: an exchange step only rearranges the inverse temperatures among the replicas; the counters of
    accepted moves follow the temperatures, and so does the recorded position. -/
theorem C175_pt_rearrange (pow : ℝ) (n order : Nat) (lv old : Nat → ℝ) (us : List ℝ) (p : Pt ℝ) :
    let p' := exchangeStep Real.exp pow n order lv old us p
    ∃ π, Rearr n π ∧ p'.beta = p.beta ∘ π ∧ p'.acc = p.acc ∘ π ∧ π p'.pos = p.pos :=
  exchangeLoop_rearr n (evens order n) us
    { p with prob := exchangeProbs Real.exp pow lv p.beta (proposedBeta n order p.beta old) }
    (fun i hi => (evens_lt order n i hi).1)

/-- states of a sampler with `n` replicas in an execution: construction, exchange steps, moves at fixed
    temperature (which change the counters), `reset`. -/
inductive Reach (n : Nat) : Pt ℝ → Prop
  | init : Reach n (ptInit n)
  | exchange (pow : ℝ) (order : Nat) (lv old : Nat → ℝ) (us : List ℝ) (p : Pt ℝ) :
      Reach n p → Reach n (exchangeStep Real.exp pow n order lv old us p)
  | moves (acc : Nat → ℝ) (p : Pt ℝ) : Reach n p → Reach n { p with acc := acc }
  | reset (p : Pt ℝ) : Reach n p → Reach n (ptReset p)

theorem reach_inv (n : Nat) (p : Pt ℝ) (h : Reach n p) :
    ∃ π, Rearr n π ∧ p.beta = (fun i => ladder n i) ∘ π ∧ π p.pos = 0 := by
  induction h with
  | init => exact ⟨1, fun k => Iff.rfl, rfl, rfl⟩
  | exchange pow order lv old us p _ ih =>
    obtain ⟨π, a, b, c⟩ := ih
    obtain ⟨π', a', b', _, d'⟩ := C175_pt_rearrange pow n order lv old us p
    refine ⟨π * π', fun k => ?_, ?_, ?_⟩
    · rw [Equiv.Perm.mul_apply, a, a']
    · rw [b', b]; rfl
    · rw [Equiv.Perm.mul_apply, d', c]
  | moves acc p _ ih => exact ih
  | reset p _ ih => exact ih

theorem ladder_inj (n i j : Nat) (h0 : 0 < n) (h : (ladder n i : ℝ) = ladder n j) : i = j := by
  have hn : (n : ℝ) ≠ 0 := by positivity
  simp only [ladder] at h
  have h1 : (i : ℝ) / n = j / n := by linarith
  rw [div_left_inj' hn] at h1
  exact_mod_cast h1

/-- C175: at all times the temperatures of the replicas are the `n` values `1 - i/n`, each once, and the
    replica whose configuration `__next__` returns is the one at inverse temperature one. -/
theorem C175_pt_position (n : Nat) (h0 : 0 < n) (p : Pt ℝ) (h : Reach n p) :
    (∃ r, returned n p = .ok r ∧ r < n ∧ p.beta r = 1 ∧ ∀ j < n, p.beta j = 1 → j = r) ∧
    (∀ i < n, ∃ j < n, p.beta j = 1 - (i : ℝ) / n ∧ ∀ j' < n, p.beta j' = 1 - (i : ℝ) / n → j' = j) := by
  obtain ⟨π, a, b, c⟩ := reach_inv n p h
  have hp : p.pos < n := (a p.pos).1 (by rw [c]; exact h0)
  have hall : ∀ i < n, ∃ j < n, p.beta j = 1 - (i : ℝ) / n ∧
      ∀ j' < n, p.beta j' = 1 - (i : ℝ) / n → j' = j := by
    intro i hi
    refine ⟨π.symm i, (a _).1 (by simpa using hi), ?_, ?_⟩
    · rw [b]; simp [ladder]
    · intro j' _ h'
      rw [b] at h'
      have : π j' = i := ladder_inj n _ _ h0 h'
      rw [← this]; simp
  refine ⟨⟨p.pos, by simp [returned, hp], hp, ?_, ?_⟩, hall⟩
  · rw [b]; simp [c, ladder]
  · intro j _ hj
    rw [b] at hj
    have h1 : π j = 0 := ladder_inj n _ _ h0 (by simpa [ladder] using hj)
    rw [← c] at h1
    exact π.injective h1

/-! ### even numbers of replicas: the exchanges -/

/-- the two exchanges touch different replicas. -/
def Apart (n i j : Nat) : Prop :=
  i ≠ j ∧ i ≠ partner n j ∧ partner n i ≠ j ∧ partner n i ≠ partner n j

theorem exchangeOne_other (n : Nat) (p : Pt ℝ) (i j : Nat) (u : ℝ) (h1 : j ≠ i) (h2 : j ≠ partner n i) :
    (exchangeOne n p i u).beta j = p.beta j ∧ (exchangeOne n p i u).acc j = p.acc j ∧
    (exchangeOne n p i u).prob j = p.prob j := by
  simp only [exchangeOne]
  split <;> simp [swapAt, h1, h2]

theorem exchangeLoop_other (n : Nat) (is : List Nat) (us : List ℝ) (p : Pt ℝ) (j : Nat)
    (h : ∀ i ∈ is, j ≠ i ∧ j ≠ partner n i) :
    (exchangeLoop n is us p).beta j = p.beta j ∧ (exchangeLoop n is us p).acc j = p.acc j := by
  induction is generalizing us p with
  | nil => exact ⟨rfl, rfl⟩
  | cons i is ih =>
    cases us with
    | nil => exact ⟨rfl, rfl⟩
    | cons u us =>
      obtain ⟨a, b⟩ := ih us (exchangeOne n p i u) (fun i' hi' => h i' (by simp [hi']))
      obtain ⟨c, d, _⟩ := exchangeOne_other n p i j u (h i (by simp)).1 (h i (by simp)).2
      simp only [exchangeLoop]
      exact ⟨a.trans c, b.trans d⟩

theorem exchangeLoop_get (n : Nat) (is : List Nat) (us : List ℝ) (p : Pt ℝ) (hd : is.Pairwise (Apart n))
    (hne : ∀ i ∈ is, partner n i ≠ i) (k : Nat) (i : Nat) (u : ℝ) (hi : is[k]? = some i)
    (hu : us[k]? = some u) :
    let p' := exchangeLoop n is us p
    let s := p.prob i * p.prob (partner n i) > u
    (s → p'.beta i = p.beta (partner n i) ∧ p'.beta (partner n i) = p.beta i ∧
      p'.acc i = p.acc (partner n i) ∧ p'.acc (partner n i) = p.acc i) ∧
    (¬ s → p'.beta i = p.beta i ∧ p'.beta (partner n i) = p.beta (partner n i) ∧
      p'.acc i = p.acc i ∧ p'.acc (partner n i) = p.acc (partner n i)) := by
  induction is generalizing us p k with
  | nil => simp at hi
  | cons a is ih =>
    cases us with
    | nil => simp at hu
    | cons v us =>
      rw [List.pairwise_cons] at hd
      cases k with
      | zero =>
        simp only [List.getElem?_cons_zero, Option.some.injEq] at hi hu
        subst hi hu
        have o1 := exchangeLoop_other n is us (exchangeOne n p a v) a
          (fun i' hi' => ⟨(hd.1 i' hi').1, (hd.1 i' hi').2.1⟩)
        have o2 := exchangeLoop_other n is us (exchangeOne n p a v) (partner n a)
          (fun i' hi' => ⟨(hd.1 i' hi').2.2.1, (hd.1 i' hi').2.2.2⟩)
        have hna := hne a (by simp)
        simp only [exchangeLoop, o1.1, o1.2, o2.1, o2.2]
        simp only [exchangeOne]
        constructor
        · intro hs
          rw [if_pos hs]
          simp [swapAt, Ne.symm hna]
        · intro hs
          rw [if_neg hs]
          simp
      | succ k =>
        simp only [List.getElem?_cons_succ] at hi hu
        have hmem : i ∈ is := List.mem_of_getElem? hi
        obtain ⟨q1, q2, q3, q4⟩ := hd.1 i hmem
        have := ih us (exchangeOne n p a v) hd.2 (fun j hj => hne j (by simp [hj])) k hi hu
        obtain ⟨x1, x2, x3⟩ := exchangeOne_other n p a i v (Ne.symm q1) (Ne.symm q3)
        obtain ⟨y1, y2, y3⟩ := exchangeOne_other n p a (partner n i) v (Ne.symm q2) (Ne.symm q4)
        simp only [x1, x2, x3, y1, y2, y3] at this
        exact this

theorem proposed_other (n : Nat) (is : List Nat) (beta p : Nat → ℝ) (j : Nat)
    (h : ∀ i ∈ is, j ≠ i ∧ j ≠ partner n i) :
    is.foldl (fun p i => fun k => if k = partner n i then beta i
      else if k = i then beta (partner n i) else p k) p j = p j := by
  induction is generalizing p with
  | nil => rfl
  | cons i is ih =>
    rw [List.foldl_cons, ih _ (fun i' hi' => h i' (by simp [hi']))]
    rw [if_neg (h i (by simp)).2, if_neg (h i (by simp)).1]

theorem proposed_get (n : Nat) (is : List Nat) (beta p : Nat → ℝ) (hd : is.Pairwise (Apart n))
    (hne : ∀ i ∈ is, partner n i ≠ i) (i : Nat) (hi : i ∈ is) :
    let q := is.foldl (fun p i => fun k => if k = partner n i then beta i
      else if k = i then beta (partner n i) else p k) p
    q i = beta (partner n i) ∧ q (partner n i) = beta i := by
  induction is generalizing p with
  | nil => simp at hi
  | cons a is ih =>
    rw [List.pairwise_cons] at hd
    rcases List.mem_cons.1 hi with rfl | hi'
    · have hna := hne i (by simp)
      simp only [List.foldl_cons]
      rw [proposed_other n is beta _ i (fun i' hi' => ⟨(hd.1 i' hi').1, (hd.1 i' hi').2.1⟩),
        proposed_other n is beta _ (partner n i)
          (fun i' hi' => ⟨(hd.1 i' hi').2.2.1, (hd.1 i' hi').2.2.2⟩)]
      simp [Ne.symm hna]
    · simp only [List.foldl_cons]
      exact ih _ hd.2 (fun j hj => hne j (by simp [hj])) hi'

theorem evens_apart (m order : Nat) (ho : order < 2) : (evens order (2 * m)).Pairwise (Apart (2 * m)) := by
  rw [evens, List.pairwise_map]
  refine (List.pairwise_lt_range).imp_of_mem ?_
  intro a b ha hb hab
  rw [List.mem_range] at ha hb
  have e1 := partner_eq (2 * m) (order + 2 * a) (by omega)
  have e2 := partner_eq (2 * m) (order + 2 * b) (by omega)
  refine ⟨by omega, ?_, ?_, ?_⟩
  · rw [e2]; split <;> omega
  · rw [e1]; split <;> omega
  · rw [e1, e2]; split <;> split <;> omega

theorem partner_ne (m i : Nat) (h : i < 2 * m) : partner (2 * m) i ≠ i := by
  rw [partner_eq _ _ h]; split <;> omega

theorem evens_get (m order k : Nat) (ho : order < 2) (hk : k < m) :
    (evens order (2 * m))[k]? = some (order + 2 * k) := by
  have : k < (2 * m - order + 1) / 2 := by omega
  simp [evens, this]

/-- C175: with an even number of replicas and either order, the replicas are matched in pairs of
    neighbours (cyclically); the two replicas of pair `k` exchange their temperatures and counters
    exactly if the `k`-th random number is below `exp(machine_pow (β' - β)(log|psi| - log|psi'|))`. -/
theorem C175_pt_exchange (pow : ℝ) (m order k : Nat) (ho : order < 2) (hk : k < m) (lv old : Nat → ℝ)
    (us : List ℝ) (u : ℝ) (hu : us[k]? = some u) (p : Pt ℝ) :
    let i := order + 2 * k
    let j := if i + 1 = 2 * m then 0 else i + 1
    let p' := exchangeStep Real.exp pow (2 * m) order lv old us p
    let s := u < Real.exp (pow * (p.beta j - p.beta i) * (lv i - lv j))
    (s → p'.beta i = p.beta j ∧ p'.beta j = p.beta i ∧ p'.acc i = p.acc j ∧ p'.acc j = p.acc i) ∧
    (¬ s → p'.beta i = p.beta i ∧ p'.beta j = p.beta j ∧ p'.acc i = p.acc i ∧ p'.acc j = p.acc j) := by
  intro i j p' s
  have hi : i < 2 * m := by omega
  have hij : partner (2 * m) i = j := partner_eq _ _ hi
  have hget := evens_get m order k ho hk
  have hmem : i ∈ evens order (2 * m) := List.mem_of_getElem? hget
  have hne : ∀ i ∈ evens order (2 * m), partner (2 * m) i ≠ i :=
    fun i hi => partner_ne m i (evens_lt _ _ _ hi).1
  have hpr := proposed_get (2 * m) (evens order (2 * m)) p.beta old (evens_apart m order ho) hne i hmem
  have hmain := exchangeLoop_get (2 * m) (evens order (2 * m)) us
    { p with prob := exchangeProbs Real.exp pow lv p.beta (proposedBeta (2 * m) order p.beta old) }
    (evens_apart m order ho) hne k i u hget hu
  simp only [hij] at hpr hmain
  have hprob : exchangeProbs Real.exp pow lv p.beta (proposedBeta (2 * m) order p.beta old) i *
      exchangeProbs Real.exp pow lv p.beta (proposedBeta (2 * m) order p.beta old) j
      = Real.exp (pow * (p.beta j - p.beta i) * (lv i - lv j)) := by
    simp only [exchangeProbs, proposedBeta]
    rw [hpr.1, hpr.2, ← Real.exp_add]
    congr 1; ring
  rw [hprob] at hmain
  exact hmain

/-- C175: this exchange satisfies detailed balance for the product of the tempered distributions
    `|psi|^(machine_pow β)`; a uniform number is below `r` with probability `min 1 r`. -/
theorem C175_pt_balance (pow b b' l l' : ℝ) :
    Real.exp (pow * b * l) * Real.exp (pow * b' * l') * min 1 (Real.exp (pow * (b' - b) * (l - l')))
    = Real.exp (pow * b' * l) * Real.exp (pow * b * l') * min 1 (Real.exp (pow * (b - b') * (l - l'))) := by
  rw [← Real.exp_add, ← Real.exp_add, mul_min_of_nonneg _ _ (Real.exp_pos _).le,
    mul_min_of_nonneg _ _ (Real.exp_pos _).le, mul_one, mul_one, ← Real.exp_add, ← Real.exp_add, min_comm]
  congr 2 <;> ring

/-! ### statistics -/

/-- one exchange step of an execution. -/
structure XStep where
  pow : ℝ
  order : Nat
  lv : Nat → ℝ
  old : Nat → ℝ
  us : List ℝ

/-- an execution of exchange steps (with arbitrary counters), and the positions recorded. -/
noncomputable def runX (n : Nat) : List XStep → Pt ℝ → Pt ℝ × List Nat
  | [], p => (p, [])
  | x :: xs, p =>
    let p1 := exchangeStep Real.exp x.pow n x.order x.lv x.old x.us p
    let r := runX n xs p1
    (r.1, p1.pos :: r.2)

theorem loop_stats (n : Nat) (is : List Nat) (us : List ℝ) (p : Pt ℝ) :
    (exchangeLoop n is us p).mean = p.mean ∧ (exchangeLoop n is us p).m2 = p.m2 ∧
    (exchangeLoop n is us p).cnt = p.cnt := by
  induction is generalizing us p with
  | nil => exact ⟨rfl, rfl, rfl⟩
  | cons i is ih =>
    cases us with
    | nil => exact ⟨rfl, rfl, rfl⟩
    | cons u us =>
      simp only [exchangeLoop]
      obtain ⟨a, b, c⟩ := ih us (exchangeOne n p i u)
      have : (exchangeOne n p i u).mean = p.mean ∧ (exchangeOne n p i u).m2 = p.m2 ∧
          (exchangeOne n p i u).cnt = p.cnt := by
        simp only [exchangeOne]; split <;> exact ⟨rfl, rfl, rfl⟩
      exact ⟨a.trans this.1, b.trans this.2.1, c.trans this.2.2⟩

theorem welford_inv (p : Pt ℝ) (c s q : ℝ) (hc : 0 ≤ c) (h1 : p.cnt = c) (h2 : c * p.mean = s)
    (h3 : p.m2 = q - c * p.mean ^ 2) :
    (welford p).cnt = c + 1 ∧ (c + 1) * (welford p).mean = s + p.pos ∧
    (welford p).m2 = q + (p.pos : ℝ) ^ 2 - (c + 1) * (welford p).mean ^ 2 := by
  have hne : c + 1 ≠ 0 := by positivity
  simp only [welford, h1]
  refine ⟨trivial, ?_, ?_⟩
  · rw [← h2]; field_simp; ring
  · rw [h3]; field_simp; ring

theorem run_inv (n : Nat) (xs : List XStep) (p : Pt ℝ) (c s q : ℝ) (hc : 0 ≤ c) (h1 : p.cnt = c)
    (h2 : c * p.mean = s) (h3 : p.m2 = q - c * p.mean ^ 2) :
    let r := runX n xs p
    r.1.cnt = c + r.2.length ∧
    (c + r.2.length) * r.1.mean = s + (r.2.map (fun x : Nat => (x : ℝ))).sum ∧
    r.1.m2 = q + (r.2.map (fun x : Nat => (x : ℝ) ^ 2)).sum - (c + r.2.length) * r.1.mean ^ 2 := by
  induction xs generalizing p c s q with
  | nil => simp [runX, h1, h2, h3]
  | cons x xs ih =>
    set p0 := exchangeLoop n (evens x.order n) x.us
      { p with prob := exchangeProbs Real.exp x.pow x.lv p.beta (proposedBeta n x.order p.beta x.old) }
      with hp0
    obtain ⟨a, b, d⟩ := loop_stats n (evens x.order n) x.us
      { p with prob := exchangeProbs Real.exp x.pow x.lv p.beta (proposedBeta n x.order p.beta x.old) }
    rw [← hp0] at a b d
    obtain ⟨w1, w2, w3⟩ := welford_inv p0 c s q hc (d.trans h1) (by rw [a]; exact h2)
      (by rw [a, b]; exact h3)
    have hx : exchangeStep Real.exp x.pow n x.order x.lv x.old x.us p = welford p0 := rfl
    have hpos : (welford p0).pos = p0.pos := rfl
    obtain ⟨i1, i2, i3⟩ := ih (welford p0) (c + 1) _ _ (by positivity) w1 w2 w3
    simp only [runX, hx, hpos, List.length_cons, List.map_cons, List.sum_cons, Nat.cast_add, Nat.cast_one]
    refine ⟨by rw [i1]; ring, ?_, ?_⟩
    · have : (c + ((runX n xs (welford p0)).2.length + 1 : ℝ)) = c + 1 + (runX n xs (welford p0)).2.length := by
        ring
      rw [this, i2]; ring
    · rw [i3]; ring

theorem sum_dev (l : List ℝ) (μ : ℝ) :
    (l.map (fun x => (x - μ) ^ 2)).sum = (l.map (fun x => x ^ 2)).sum - 2 * μ * l.sum + l.length * μ ^ 2 := by
  induction l with
  | nil => simp
  | cons a l ih => simp only [List.map_cons, List.sum_cons, ih, List.length_cons]; push_cast; ring

/-- C175: the diffusion statistics: after `reset` and any exchange steps, `_beta_stats` holds the number
    of steps, the mean position of the replica at `β = 1` and the sum of the squared deviations from
    this mean. -/
theorem C175_pt_statistics (n : Nat) (p : Pt ℝ) (xs : List XStep) (hx : xs ≠ []) :
    let r := runX n xs (ptReset p)
    let pos : List ℝ := r.2.map (fun x : Nat => (x : ℝ))
    r.2.length = xs.length ∧ r.1.cnt = xs.length ∧ r.1.mean = pos.sum / pos.length ∧
    r.1.m2 = (pos.map (fun x => (x - pos.sum / pos.length) ^ 2)).sum := by
  intro r pos
  have hlen : ∀ (xs : List XStep) (p : Pt ℝ), (runX n xs p).2.length = xs.length := by
    intro xs
    induction xs with
    | nil => intro p; rfl
    | cons x xs ih => intro p; simp [runX, ih]
  have hl : r.2.length = xs.length := hlen xs _
  obtain ⟨h1, h2, h3⟩ := run_inv n xs (ptReset p) 0 0 0 le_rfl rfl (by simp) (by simp [ptReset])
  rw [zero_add] at h1 h2 h3
  rw [zero_add] at h2 h3
  have hpl : (pos.length : ℝ) = r.2.length := by simp [pos]
  have hne : (r.2.length : ℝ) ≠ 0 := by
    have : 0 < xs.length := List.length_pos_iff.2 hx
    have : 0 < r.2.length := by omega
    positivity
  have hmean : r.1.mean = pos.sum / pos.length := by
    rw [hpl, eq_div_iff hne, mul_comm]; exact h2
  refine ⟨hl, by rw [← hl]; exact h1, hmean, ?_⟩
  rw [sum_dev, ← hmean]
  have hs : pos.sum = r.2.length * r.1.mean := h2.symm
  rw [hs, hpl]
  have h4 : (pos.map (fun x => x ^ 2)).sum = (r.2.map (fun x : Nat => (x : ℝ) ^ 2)).sum := by
    simp [pos, Function.comp_def]
  rw [h4]
  have h5 : r.1.m2 = (r.2.map (fun x : Nat => (x : ℝ) ^ 2)).sum - r.2.length * r.1.mean ^ 2 := h3
  rw [h5]; ring

theorem run_positions (n : Nat) (h0 : 0 < n) (xs : List XStep) (p : Pt ℝ) (hp : Reach n p) :
    ∀ x ∈ (runX n xs p).2, x < n := by
  induction xs generalizing p with
  | nil => simp [runX]
  | cons x xs ih =>
    intro y hy
    have hr : Reach n (exchangeStep Real.exp x.pow n x.order x.lv x.old x.us p) := .exchange _ _ _ _ _ _ hp
    simp only [runX, List.mem_cons] at hy
    rcases hy with rfl | hy
    · obtain ⟨⟨r, h1, h2, _⟩, _⟩ := C175_pt_position n h0 _ hr
      simp only [returned] at h1
      split at h1
      · assumption
      · simp at h1
    · exact ih _ hr y hy

/-- C175: the reported normalised position is within `[-1/2, 1/2]` for at least two replicas. -/
theorem C175_pt_stats_range (n : Nat) (hn : 2 ≤ n) (p : Pt ℝ) (hp : Reach n p) (xs : List XStep)
    (hx : xs ≠ []) :
    ∃ v, positionStat n (runX n xs (ptReset p)).1 = some v ∧ -1 / 2 ≤ v ∧ v ≤ 1 / 2 := by
  obtain ⟨h1, _, h3, _⟩ := C175_pt_statistics n p xs hx
  have hpos := run_positions n (by omega) xs (ptReset p) (.reset p hp)
  set r := runX n xs (ptReset p)
  refine ⟨_, by simp only [positionStat]; rw [if_neg (by omega)], ?_⟩
  have hlen : 0 < r.2.length := by rw [h1]; exact List.length_pos_iff.2 hx
  have hb : 0 ≤ (r.2.map (fun x : Nat => (x : ℝ))).sum ∧
      (r.2.map (fun x : Nat => (x : ℝ))).sum ≤ r.2.length * ((n : ℝ) - 1) := by
    clear h3 h1 hlen
    generalize r.2 = l at hpos ⊢
    induction l with
    | nil => simp
    | cons a l ih =>
      obtain ⟨i1, i2⟩ := ih (fun x hx => hpos x (by simp [hx]))
      have ha : (a : ℝ) ≤ (n : ℝ) - 1 := by
        have := hpos a (by simp)
        have : a + 1 ≤ n := this
        have : (a : ℝ) + 1 ≤ n := by exact_mod_cast this
        linarith
      simp only [List.map_cons, List.sum_cons, List.length_cons]
      push_cast
      constructor
      · positivity
      · linarith
  have hl' : (0 : ℝ) < r.2.length := by exact_mod_cast hlen
  have hn' : (0 : ℝ) < (n : ℝ) - 1 := by
    have : (2 : ℝ) ≤ n := by exact_mod_cast hn
    linarith
  rw [h3, List.length_map]
  have hm0 : 0 ≤ (r.2.map (fun x : Nat => (x : ℝ))).sum / r.2.length := div_nonneg hb.1 hl'.le
  have hm1 : (r.2.map (fun x : Nat => (x : ℝ))).sum / r.2.length ≤ (n : ℝ) - 1 := by
    rw [div_le_iff₀ hl', mul_comm]; exact hb.2
  have d0 := div_nonneg hm0 hn'.le
  have d1 := (div_le_one hn').2 hm1
  constructor <;> linarith

/-! ### deviations -/

/-- C176: with an odd number `2m+1 ≥ 3` of replicas and order 0, replica 0 is matched twice: the number
    compared for the pair (0, 1) is built with the temperature of the last replica, and is the ratio of
    the joint weights only if that temperature is the one of replica 1 (or `log|psi|` vanishes). -/
theorem C176_odd_refuted (pow : ℝ) (m : Nat) (hm : 0 < m) (lv old : Nat → ℝ) (beta : Nat → ℝ) (hp : pow ≠ 0) :
    let pr := exchangeProbs Real.exp pow lv beta (proposedBeta (2 * m + 1) 0 beta old)
    pr 0 * pr 1 = Real.exp (pow * (beta (2 * m) - beta 0) * lv 0 + pow * (beta 0 - beta 1) * lv 1) ∧
    (pr 0 * pr 1 = Real.exp (pow * (beta 1 - beta 0) * (lv 0 - lv 1)) ↔
      beta (2 * m) = beta 1 ∨ lv 0 = 0) := by
  intro pr
  have hev : evens 0 (2 * m + 1) = evens 0 (2 * m) ++ [2 * m] := by
    simp only [evens]
    rw [show (2 * m + 1 - 0 + 1) / 2 = m + 1 by omega, show (2 * m - 0 + 1) / 2 = m by omega,
      List.range_succ, List.map_append]
    simp
  have hpt : ∀ i < 2 * m, partner (2 * m + 1) i = i + 1 := by
    intro i hi; rw [partner_eq _ _ (by omega), if_neg (by omega)]
  have hlast : partner (2 * m + 1) (2 * m) = 0 := by rw [partner_eq _ _ (by omega), if_pos rfl]
  have hev' : evens 0 (2 * m) = 0 :: (evens 0 (2 * m)).tail := by
    obtain ⟨m, rfl⟩ : ∃ k, m = k + 1 := ⟨m - 1, by omega⟩
    simp only [evens]
    rw [show (2 * (m + 1) - 0 + 1) / 2 = m + 1 by omega, List.range_succ_eq_map]
    rfl
  have htail : ∀ i ∈ (evens 0 (2 * m)).tail, i < 2 * m ∧ 2 ≤ i := by
    obtain ⟨m, rfl⟩ : ∃ k, m = k + 1 := ⟨m - 1, by omega⟩
    simp only [evens]
    rw [show (2 * (m + 1) - 0 + 1) / 2 = m + 1 by omega, List.range_succ_eq_map]
    intro i hi
    simp only [List.map_cons, List.tail_cons, List.map_map, List.mem_map, List.mem_range,
      Function.comp] at hi
    obtain ⟨k, hk, rfl⟩ := hi
    omega
  have h0 : proposedBeta (2 * m + 1) 0 beta old 0 = beta (2 * m) := by
    simp only [proposedBeta, hev, List.foldl_append, List.foldl_cons, List.foldl_nil, hlast, if_true]
  have h1 : proposedBeta (2 * m + 1) 0 beta old 1 = beta 0 := by
    simp only [proposedBeta, hev, List.foldl_append, List.foldl_cons, List.foldl_nil, hlast]
    rw [if_neg one_ne_zero, if_neg (by omega), hev', List.foldl_cons, proposed_other]
    · rw [hpt 0 (by omega)]; simp
    · intro i hi
      obtain ⟨a, b⟩ := htail i hi
      rw [hpt i a]
      omega
  have hpr : pr 0 * pr 1
      = Real.exp (pow * (beta (2 * m) - beta 0) * lv 0 + pow * (beta 0 - beta 1) * lv 1) := by
    simp only [pr, exchangeProbs, h0, h1]
    rw [← Real.exp_add]
  refine ⟨hpr, ?_⟩
  rw [hpr, Real.exp_eq_exp]
  constructor
  · intro h
    have h2 : pow * ((beta (2 * m) - beta 1) * lv 0) = 0 := by linarith
    rcases mul_eq_zero.1 h2 with h3 | h3
    · exact absurd h3 hp
    · rcases mul_eq_zero.1 h3 with h4 | h4
      · exact Or.inl (sub_eq_zero.1 h4)
      · exact Or.inr h4
  · rintro (h | h)
    · rw [h]; ring
    · rw [h]; ring

/-- C176: no replica is ever at `β = 0` ("β = 0 is the flat distribution"): the lowest is `1/n`. -/
theorem C176_flat_refuted (n : Nat) (h0 : 0 < n) (p : Pt ℝ) (h : Reach n p) :
    ∀ j < n, 1 / (n : ℝ) ≤ p.beta j := by
  obtain ⟨π, a, b, _⟩ := reach_inv n p h
  intro j hj
  have hn : (0 : ℝ) < n := by exact_mod_cast h0
  have h1 : π j + 1 ≤ n := (a j).2 hj
  have h2 : ((π j : Nat) : ℝ) + 1 ≤ n := by exact_mod_cast h1
  rw [b]
  simp only [Function.comp, ladder]
  rw [div_le_iff₀ hn, sub_mul, one_mul, div_mul_cancel₀ _ hn.ne']
  linarith

/-- C176: setting `n_replicas` keeps the recorded position: unless it is 0, the configuration returned
    afterwards is not the one at `β = 1`, or the index is out of range. -/
theorem C176_n_replicas_refuted :
    (∀ (p : Pt ℝ) (n' : Nat), 0 < n' → p.pos ≠ 0 →
      ∃ p', setReplicas (n' : Int) p = .ok p' ∧
        (returned n' p' = .error .indexError ∨
          ∃ r, returned n' p' = .ok r ∧ p'.beta r < 1)) ∧
    ∃ p : Pt ℝ, Reach 2 p ∧ p.pos ≠ 0 := by
  constructor
  · intro p n' hn hpos
    have h1 : ¬ ((n' : Int) < 1) := by omega
    have e : setReplicas (n' : Int) p = .ok { p with beta := fun i => ladder n' i, prob := fun _ => 0 } := by
      simp only [setReplicas, if_neg h1, Int.toNat_natCast]
    refine ⟨_, e, ?_⟩
    by_cases hlt : p.pos < n'
    · refine Or.inr ⟨p.pos, by simp [returned, hlt], ?_⟩
      simp only [ladder]
      have ha : (0 : ℝ) < p.pos := by exact_mod_cast Nat.pos_of_ne_zero hpos
      have hb : (0 : ℝ) < n' := by exact_mod_cast hn
      have := div_pos ha hb
      linarith
    · exact Or.inl (by simp [returned, hlt])
  · refine ⟨exchangeStep Real.exp 2 2 0 (fun _ => 0) (fun _ => 0) [0] (ptInit 2),
      .exchange _ _ _ _ _ _ .init, ?_⟩
    simp [exchangeStep, welford, evens, exchangeLoop, exchangeOne, exchangeProbs, partner, ptInit]

/-- C176: with one replica (accepted by the constructor) the reported position is not a number. -/
theorem C176_one_replica_refuted (p : Pt ℝ) :
    (∃ p', setReplicas 1 p = .ok p') ∧ positionStat 1 p = none :=
  ⟨⟨_, rfl⟩, rfl⟩

/-! ### ExactSampler -/

theorem sum_div (l : List ℝ) (c : ℝ) : (l.map (fun x => x / c)).sum = l.sum / c := by
  induction l with
  | nil => simp
  | cons a l ih => simp only [List.map_cons, List.sum_cons, ih]; ring

/-- C175: `ExactSampler` after construction, `reset` or a change of `machine_pow`, and `samples` always,
    draw with probabilities proportional to `|psi|^machine_pow`, non-negative and of sum one. -/
theorem C175_exact (s : Exact ℝ) (m : Nat) (amps : List ℝ)
    (hz : (s.amps.map (fun a => |a| ^ s.pow)).sum ≠ 0) :
    (exactReset s).prob = s.amps.map (fun a => |a| ^ s.pow / (s.amps.map (fun a => |a| ^ s.pow)).sum) ∧
    (exactReset s).prob.sum = 1 ∧ (∀ q ∈ (exactReset s).prob, 0 ≤ q) ∧
    exactGenerateLaw (exactReset s) = (exactReset s).prob ∧
    exactSamplesLaw s = (exactReset s).prob ∧
    exactGenerateLaw (exactSetPow m s) = exactSamplesLaw { s with pow := m } ∧
    exactGenerateLaw (exactInit amps) = exactSamplesLaw (exactInit amps) := by
  refine ⟨by simp [exactReset, Function.comp_def], ?_, ?_, rfl, rfl, rfl, rfl⟩
  · simp only [exactReset]
    rw [sum_div, div_self hz]
  · intro q hq
    simp only [exactReset, List.mem_map] at hq
    obtain ⟨_, ⟨a, _, rfl⟩, rfl⟩ := hq
    refine div_nonneg (by positivity) (List.sum_nonneg ?_)
    intro x hx
    obtain ⟨b, _, rfl⟩ := List.mem_map.1 hx
    positivity

/-- C176: `ExactSampler.generate_samples` does not reset: after a change of the parameters of the machine
    it draws from the distribution of the old parameters, whatever the new ones are. -/
theorem C176_exact_refuted :
    (∀ (s : Exact ℝ) (amps : List ℝ),
      exactGenerateLaw (setAmps amps (exactReset s)) = exactSamplesLaw s) ∧
    ¬ ∀ (s : Exact ℝ) (amps : List ℝ),
      exactGenerateLaw (setAmps amps (exactReset s)) = exactSamplesLaw (setAmps amps s) := by
  refine ⟨fun s amps => rfl, ?_⟩
  intro h
  have := h { amps := [1, 0], pow := 2, prob := [] } [0, 1]
  simp [exactGenerateLaw, setAmps, exactReset, exactSamplesLaw] at this

example : evens 1 4 = [1, 3] ∧ partner 4 3 = 0 ∧ evens 0 3 = [0, 2] ∧ partner 3 2 = 0 := by decide
example : Reach 4 (ptReset (ptInit 4)) := .reset _ .init
example : ((exactInit [3, 4] : Exact ℝ)).amps.map (fun a => |a| ^ 2) = [9, 16] := by
  simp [exactInit, exactReset]; norm_num

end Verif.Legacy
