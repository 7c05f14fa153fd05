import Verif.Spec.Ergodic
import Mathlib.Topology.Instances.Real.Lemmas
import Mathlib.Topology.Sequences
import Mathlib.Logic.Relation
import Mathlib.Tactic.Linarith
import Mathlib.Tactic.Positivity
import Mathlib.Tactic.Ring

/-! Finite Markov chains: reachability, uniqueness of the stationary density, convergence. -/

namespace Verif.Markov

open Finset Filter Topology

variable {X : Type} [DecidableEq X] {S : Finset X} {P : X → X → ℝ} {π : X → ℝ}

theorem kpow_add (m n : Nat) : ∀ x ∈ S, ∀ y, 
    kpow S P (m + n) x y = ∑ z ∈ S, kpow S P m x z * kpow S P n z y := by
  induction m with
  | zero =>
    intro x hx y
    simp [kpow, hx]
  | succ m ih =>
    intro x hx y
    rw [show m + 1 + n = (m + n) + 1 by omega]
    simp only [kpow]
    rw [Finset.sum_congr rfl fun z hz => by rw [ih z hz y, Finset.mul_sum], Finset.sum_comm]
    refine Finset.sum_congr rfl fun v _ => ?_
    rw [Finset.sum_mul]
    exact Finset.sum_congr rfl fun z _ => by ring

theorem kpow_one (x y : X) (hy : y ∈ S) : kpow S P 1 x y = P x y := by
  simp [kpow, hy]

theorem kpow_mul (n t : Nat) : ∀ x ∈ S, ∀ y,
    kpow S (kpow S P n) t x y = kpow S P (n * t) x y := by
  induction t with
  | zero => intro x _ y; rfl
  | succ t ih =>
    intro x hx y
    rw [show n * (t + 1) = n + n * t by ring, kpow_add n (n * t) x hx y]
    simp only [kpow]
    exact Finset.sum_congr rfl fun z hz => by rw [ih z hz y]

theorem kpow_pos_trans (hs : Stochastic S P) {m n : Nat} {x y z : X} (hx : x ∈ S) (hy : y ∈ S)
    (hz : z ∈ S) (h1 : 0 < kpow S P m x y) (h2 : 0 < kpow S P n y z) :
    0 < kpow S P (m + n) x z := by
  rw [kpow_add m n x hx z]
  refine Finset.sum_pos' (fun v hv => mul_nonneg ((hs.kpow m).1 x hx v hv)
    ((hs.kpow n).1 v hv z hz)) ⟨y, hy, mul_pos h1 h2⟩

/-- one move with positive probability. -/
def Edge (S : Finset X) (P : X → X → ℝ) (x y : X) : Prop := x ∈ S ∧ y ∈ S ∧ 0 < P x y

theorem reach_of_edges (hs : Stochastic S P) {x y : X} (hx : x ∈ S)
    (h : Relation.ReflTransGen (Edge S P) x y) : y ∈ S ∧ ∃ n, 0 < kpow S P n x y := by
  induction h with
  | refl => exact ⟨hx, 0, by simp [kpow]⟩
  | tail _ e ih =>
    obtain ⟨h1, n, hn⟩ := ih
    exact ⟨e.2.1, n + 1, kpow_pos_trans hs hx h1 e.2.1 hn (by rw [kpow_one _ _ e.2.1]; exact e.2.2)⟩

theorem irreducible_of_edges (hs : Stochastic S P)
    (h : ∀ x ∈ S, ∀ y ∈ S, Relation.ReflTransGen (Edge S P) x y) : Irreducible S P :=
  fun x hx y hy => (reach_of_edges hs hx (h x hx y hy)).2

theorem edges_of_kpow (hs : Stochastic S P) (n : Nat) : ∀ x ∈ S, ∀ y ∈ S, 0 < kpow S P n x y →
    Relation.ReflTransGen (Edge S P) x y := by
  induction n with
  | zero =>
    intro x _ y _ h
    by_cases e : x = y
    · subst e; exact .refl
    · simp [kpow, e] at h
  | succ n ih =>
    intro x hx y hy h
    simp only [kpow] at h
    obtain ⟨z, hz, hp⟩ : ∃ z ∈ S, 0 < P x z * kpow S P n z y := by
      by_contra hc
      push Not at hc
      exact absurd (Finset.sum_nonpos hc) (not_le.2 h)
    have h1 := hs.1 x hx z hz
    have h2 : 0 < P x z := lt_of_le_of_ne h1 (fun e => by rw [← e, zero_mul] at hp; exact lt_irrefl _ hp)
    exact .head ⟨hx, hz, h2⟩ (ih z hz y hy (pos_of_mul_pos_right hp h1))

/-- applying the chain to a function: the expected value one move later. -/
theorem kpow_harmonic (f : X → ℝ) (hf : ∀ x ∈ S, ∑ y ∈ S, P x y * f y = f x) (n : Nat) :
    ∀ x ∈ S, ∑ y ∈ S, kpow S P n x y * f y = f x := by
  induction n with
  | zero => intro x hx; simp [kpow, hx]
  | succ n ih =>
    intro x hx
    simp only [kpow]
    rw [Finset.sum_congr rfl fun y _ => Finset.sum_mul _ _ _, Finset.sum_comm]
    rw [← hf x hx]
    refine Finset.sum_congr rfl fun z hz => ?_
    rw [← ih z hz, Finset.mul_sum]
    exact Finset.sum_congr rfl fun y _ => by ring

/-- maximum principle. -/
theorem harmonic_const (hs : Stochastic S P) (hi : Irreducible S P) (f : X → ℝ)
    (hf : ∀ x ∈ S, ∑ y ∈ S, P x y * f y = f x) : ∀ x ∈ S, ∀ y ∈ S, f x = f y := by
  intro x hx y hy
  obtain ⟨m, hm, hmax⟩ := Finset.exists_max_image S f ⟨x, hx⟩
  have key : ∀ z ∈ S, f z = f m := by
    intro z hz
    obtain ⟨n, hn⟩ := hi m hm z hz
    have h1 := kpow_harmonic f hf n m hm
    have h2 : ∑ y ∈ S, kpow S P n m y * (f m - f y) = 0 := by
      simp only [mul_sub, Finset.sum_sub_distrib]
      rw [h1, ← Finset.sum_mul, (hs.kpow n).2 m hm]; ring
    have h3 := (Finset.sum_eq_zero_iff_of_nonneg (fun y hy =>
      mul_nonneg ((hs.kpow n).1 m hm y hy) (sub_nonneg.2 (hmax y hy)))).1 h2 z hz
    rcases mul_eq_zero.1 h3 with h | h
    · exact absurd h hn.ne'
    · linarith
  rw [key x hx, key y hy]

theorem onlyStationary_of_irreducible (hs : Stochastic S P) (hr : Reversible S π P)
    (hp : ∀ x ∈ S, 0 < π x) (hi : Irreducible S P) : OnlyStationary S π P := by
  intro μ hμ
  rcases S.eq_empty_or_nonempty with he | ⟨x0, h0⟩
  · subst he; exact ⟨0, by simp⟩
  have hf : ∀ x ∈ S, ∑ y ∈ S, P x y * (μ y / π y) = μ x / π x := by
    intro x hx
    rw [← hμ x hx, Finset.sum_div]
    refine Finset.sum_congr rfl fun y hy => ?_
    have h1 := hr x hx y hy
    have h2 := (hp x hx).ne'
    have h3 := (hp y hy).ne'
    field_simp
    linear_combination (μ y) * h1
  refine ⟨μ x0 / π x0, fun x hx => ?_⟩
  rw [harmonic_const hs hi (fun x => μ x / π x) hf x0 h0 x hx]
  have := (hp x hx).ne'
  field_simp

/-- the stationary mass is kept by any number of moves. -/
theorem stationary_kpow (hst : Stationary S π P) (n : Nat) : Stationary S π (kpow S P n) := by
  induction n with
  | zero => intro y hy; simp [kpow, hy]
  | succ n ih =>
    intro y hy
    simp only [kpow]
    rw [Finset.sum_congr rfl fun y _ => Finset.mul_sum _ _ _, Finset.sum_comm]
    rw [← ih y hy]
    refine Finset.sum_congr rfl fun z hz => ?_
    rw [← hst z hz, Finset.sum_mul]
    exact Finset.sum_congr rfl fun y _ => by ring

/-- if one configuration can be returned to after any large number of moves, all large numbers of moves
    connect all pairs. -/
theorem positive_of_return (hs : Stochastic S P) (hi : Irreducible S P) {z : X} (hz : z ∈ S) {k0 : Nat}
    (hloop : ∀ k, k0 ≤ k → 0 < kpow S P k z z) :
    ∃ m, ∀ n, m ≤ n → ∀ x ∈ S, ∀ y ∈ S, 0 < kpow S P n x y := by
  classical
  have ha : ∀ x : X, ∃ n, x ∈ S → 0 < kpow S P n x z := fun x => by
    by_cases hx : x ∈ S
    · obtain ⟨n, hn⟩ := hi x hx z hz; exact ⟨n, fun _ => hn⟩
    · exact ⟨0, fun h => absurd h hx⟩
  have hb : ∀ y : X, ∃ n, y ∈ S → 0 < kpow S P n z y := fun y => by
    by_cases hy : y ∈ S
    · obtain ⟨n, hn⟩ := hi z hz y hy; exact ⟨n, fun _ => hn⟩
    · exact ⟨0, fun h => absurd h hy⟩
  choose a ha using ha
  choose b hb using hb
  refine ⟨S.sup a + S.sup b + k0, fun n hn x hx y hy => ?_⟩
  have h1 : a x ≤ S.sup a := Finset.le_sup hx
  have h2 : b y ≤ S.sup b := Finset.le_sup hy
  have := kpow_pos_trans hs hx hz hy
    (kpow_pos_trans hs hx hz hz (ha x hx) (hloop (n - a x - b y) (by omega))) (hb y hy)
  rwa [show a x + (n - a x - b y) + b y = n by omega] at this

theorem return_of_loop (hs : Stochastic S P) {z : X} (hz : z ∈ S) (hl : 0 < P z z) (k : Nat) :
    0 < kpow S P k z z := by
  induction k with
  | zero => simp [kpow]
  | succ k ih => exact kpow_pos_trans hs hz hz hz ih (by rw [kpow_one _ _ hz]; exact hl)

/-- a way back in two moves and a way back in three moves. -/
theorem return_of_two_three (hs : Stochastic S P) {z : X} (hz : z ∈ S) (h2 : 0 < kpow S P 2 z z)
    (h3 : 0 < kpow S P 3 z z) (k : Nat) (hk : 2 ≤ k) : 0 < kpow S P k z z := by
  induction k using Nat.strong_induction_on with
  | _ k ih =>
    rcases (by omega : k = 2 ∨ k = 3 ∨ 4 ≤ k) with h | h | h
    · subst h; exact h2
    · subst h; exact h3
    · have := kpow_pos_trans hs hz hz hz (ih (k - 2) (by omega) (by omega)) h2
      rwa [show k - 2 + 2 = k by omega] at this

/-- spread of a function on `S`. -/
def SpreadLe (S : Finset X) (f : X → ℝ) (c : ℝ) : Prop := ∀ x ∈ S, ∀ y ∈ S, f x - f y ≤ c

theorem spread_contract {Q : X → X → ℝ} (hq : Stochastic S Q) {δ : ℝ}
    (hδ : ∀ x ∈ S, ∀ y ∈ S, δ ≤ Q x y) (h0 : 0 ≤ δ) {f : X → ℝ} {c : ℝ} (hf : SpreadLe S f c) :
    SpreadLe S (fun x => ∑ z ∈ S, Q x z * f z) ((1 - δ) * c) := by
  intro x hx y hy
  obtain ⟨m, hm, hmin⟩ := Finset.exists_min_image S f ⟨x, hx⟩
  have hc : 0 ≤ c := by have := hf x hx x hx; linarith
  have e : ∀ v ∈ S, ∑ z ∈ S, Q v z * f z = f m + ∑ z ∈ S, Q v z * (f z - f m) := by
    intro v hv
    simp only [mul_sub, Finset.sum_sub_distrib]
    rw [← Finset.sum_mul, hq.2 v hv]; ring
  dsimp only
  rw [e x hx, e y hy]
  have h1 : 0 ≤ ∑ z ∈ S, Q y z * (f z - f m) := Finset.sum_nonneg fun z hz =>
    mul_nonneg (hq.1 y hy z hz) (sub_nonneg.2 (hmin z hz))
  have h2 : ∑ z ∈ S, Q x z * (f z - f m) ≤ (1 - δ) * c := by
    rw [← Finset.add_sum_erase S _ hm]
    have h3 : ∑ z ∈ S.erase m, Q x z * (f z - f m) ≤ ∑ z ∈ S.erase m, Q x z * c :=
      Finset.sum_le_sum fun z hz => mul_le_mul_of_nonneg_left (hf z (Finset.mem_of_mem_erase hz) m hm)
        (hq.1 x hx z (Finset.mem_of_mem_erase hz))
    have h4 : ∑ z ∈ S.erase m, Q x z = 1 - Q x m := by
      have := Finset.add_sum_erase S (fun z => Q x z) hm
      rw [hq.2 x hx] at this
      linarith
    rw [← Finset.sum_mul, h4] at h3
    have h5 := mul_le_mul_of_nonneg_right (sub_le_sub_left (hδ x hx m hm) 1) hc
    simp only [sub_self, mul_zero, zero_add]
    linarith
  linarith

/-- the spread of the law of the configuration after `t` moves falls by the factor `1 - δ` every `m`
    moves. -/
theorem spread_kpow (hs : Stochastic S P) {m : Nat} {δ : ℝ} (h0 : 0 ≤ δ)
    (hδ : ∀ x ∈ S, ∀ y ∈ S, δ ≤ kpow S P m x y) (y : X) (hy : y ∈ S) (q r : Nat) :
    SpreadLe S (fun x => kpow S P (q * m + r) x y) ((1 - δ) ^ q) := by
  induction q with
  | zero =>
    intro a ha b hb
    have h1 := (hs.kpow r).1 b hb y hy
    have h2 : kpow S P r a y ≤ 1 := by
      rw [← (hs.kpow r).2 a ha]
      exact Finset.single_le_sum (f := fun z => kpow S P r a z) (fun z hz => (hs.kpow r).1 a ha z hz) hy
    simp only [zero_mul, zero_add, pow_zero]
    linarith
  | succ q ih =>
    have := spread_contract (hs.kpow m) hδ h0 ih
    rw [pow_succ']
    intro a ha b hb
    have h := this a ha b hb
    dsimp only at h ⊢
    rw [show (q + 1) * m + r = m + (q * m + r) by ring, kpow_add _ _ a ha, kpow_add _ _ b hb]
    exact h

/-- distance to the stationary density, uniformly in the starting configuration. -/
theorem distance_le (hs : Stochastic S P) (hst : Stationary S π P) (hp : ∀ x ∈ S, 0 < π x) {m : Nat}
    {δ : ℝ} (h0 : 0 ≤ δ) (hδ : ∀ x ∈ S, ∀ y ∈ S, δ ≤ kpow S P m x y) (q r : Nat) :
    ∀ x ∈ S, ∀ y ∈ S,
      |kpow S P (q * m + r) x y - π y / ∑ z ∈ S, π z| ≤ (1 - δ) ^ q := by
  intro x hx y hy
  have hZ : 0 < ∑ z ∈ S, π z := Finset.sum_pos hp ⟨x, hx⟩
  have hsp := spread_kpow hs h0 hδ y hy q r
  have h1 := stationary_kpow hst (q * m + r) y hy
  have e : kpow S P (q * m + r) x y - π y / ∑ z ∈ S, π z
      = (∑ z ∈ S, π z * (kpow S P (q * m + r) x y - kpow S P (q * m + r) z y)) / ∑ z ∈ S, π z := by
    simp only [mul_sub, Finset.sum_sub_distrib]
    rw [h1, ← Finset.sum_mul]
    field_simp
  rw [e, abs_div, abs_of_pos hZ, div_le_iff₀ hZ, Finset.mul_sum]
  refine le_trans (Finset.abs_sum_le_sum_abs _ _) (Finset.sum_le_sum fun z hz => ?_)
  rw [abs_mul, abs_of_pos (hp z hz), mul_comm]
  refine mul_le_mul_of_nonneg_right (abs_le.2 ⟨?_, hsp x hx z hz⟩) (hp z hz).le
  have := hsp z hz x hx
  dsimp only at this
  linarith

theorem converges_of_positive (hs : Stochastic S P) (hst : Stationary S π P)
    (hp : ∀ x ∈ S, 0 < π x) {m : Nat} (hm : 0 < m) (hpos : ∀ x ∈ S, ∀ y ∈ S, 0 < kpow S P m x y) :
    Converges S π P := by
  intro x hx y hy
  obtain ⟨a, ha, hamin⟩ := Finset.exists_min_image (S ×ˢ S) (fun p => kpow S P m p.1 p.2)
    ⟨(x, x), Finset.mem_product.2 ⟨hx, hx⟩⟩
  have ha' := Finset.mem_product.1 ha
  set δ := kpow S P m a.1 a.2 with hδ
  have h0 : 0 < δ := hpos _ ha'.1 _ ha'.2
  have hle : ∀ x ∈ S, ∀ y ∈ S, δ ≤ kpow S P m x y := fun x hx y hy =>
    hamin (x, y) (Finset.mem_product.2 ⟨hx, hy⟩)
  have h1 : δ ≤ 1 := by
    rw [hδ, ← (hs.kpow m).2 a.1 ha'.1]
    exact Finset.single_le_sum (f := fun z => kpow S P m a.1 z)
      (fun z hz => (hs.kpow m).1 a.1 ha'.1 z hz) ha'.2
  have hlim : Tendsto (fun t : Nat => (1 - δ) ^ (t / m)) atTop (𝓝 0) :=
    (tendsto_pow_atTop_nhds_zero_of_lt_one (by linarith) (by linarith)).comp
      (Nat.tendsto_div_const_atTop hm.ne')
  rw [tendsto_iff_dist_tendsto_zero]
  refine squeeze_zero (fun _ => dist_nonneg) (fun t => ?_) hlim
  have := distance_le hs hst hp h0.le hle (t / m) (t % m) x hx y hy
  rw [mul_comm, Nat.div_add_mod] at this
  rw [Real.dist_eq]; exact this

theorem converges_of_return (hs : Stochastic S P) (hst : Stationary S π P)
    (hp : ∀ x ∈ S, 0 < π x) (hi : Irreducible S P) {z : X} (hz : z ∈ S) {k0 : Nat}
    (hloop : ∀ k, k0 ≤ k → 0 < kpow S P k z z) : Converges S π P := by
  obtain ⟨m, hm⟩ := positive_of_return hs hi hz hloop
  exact converges_of_positive hs hst hp (m := m + 1) (by omega) (hm (m + 1) (by omega))

/-- if every configuration can be returned to in two moves, an odd number of moves connects as much as
    one move. -/
theorem irreducible_odd (hs : Stochastic S P) (hi : Irreducible S P)
    (h2 : ∀ z ∈ S, 0 < kpow S P 2 z z) {n : Nat} (hn : n % 2 = 1) :
    Irreducible S (kpow S P n) := by
  intro x hx y hy
  obtain ⟨m, hm⟩ := hi x hx y hy
  refine ⟨m, ?_⟩
  rw [kpow_mul n m x hx y]
  have hback : ∀ k, 0 < kpow S P (2 * k) y y := by
    intro k
    induction k with
    | zero => simp [kpow]
    | succ k ih => exact kpow_pos_trans hs hy hy hy ih (h2 y hy)
  have e : n * m = m + 2 * (n / 2 * m) := by
    conv_lhs => rw [show n = 1 + 2 * (n / 2) by omega]
    ring
  rw [e]
  exact kpow_pos_trans hs hx hy hy hm (hback _)

/-- the law of the `t`-th of every `n`-th configuration. -/
theorem Converges.kpow (h : Converges S π P) {n : Nat} (hn : 0 < n) :
    Converges S π (Markov.kpow S P n) := by
  intro x hx y hy
  have h1 := (h x hx y hy).comp (Filter.tendsto_id.const_mul_atTop' hn)
  refine h1.congr fun t => ?_
  rw [kpow_mul n t x hx y]
  rfl

theorem Converges.irreducible (h : Converges S π P) (hp : ∀ x ∈ S, 0 < π x) : Irreducible S P := by
  intro x hx y hy
  have hZ : 0 < ∑ z ∈ S, π z := Finset.sum_pos hp ⟨x, hx⟩
  have := (h x hx y hy).eventually (lt_mem_nhds (div_pos (hp y hy) hZ))
  obtain ⟨n, hn⟩ := this.exists
  exact ⟨n, hn⟩

theorem kpow_le_one (hs : Stochastic S P) (n : Nat) {x y : X} (hx : x ∈ S) (hy : y ∈ S) :
    kpow S P n x y ≤ 1 := by
  rw [← (hs.kpow n).2 x hx]
  exact Finset.single_le_sum (f := fun z => Markov.kpow S P n x z)
    (fun z hz => (hs.kpow n).1 x hx z hz) hy

/-- average of the first `T` laws, zero outside `S`. -/
noncomputable def averages (S : Finset X) (P : X → X → ℝ) (y : X) (T : Nat) (x : X) : ℝ :=
  if x ∈ S then (∑ t ∈ range T, kpow S P t x y) / T else 0

theorem averages_mem (hs : Stochastic S P) {y : X} (hy : y ∈ S) (T : Nat) (x : X) :
    averages S P y T x ∈ Set.Icc (0 : ℝ) 1 := by
  rw [averages]
  split
  · next hx =>
    have h1 : 0 ≤ ∑ t ∈ range T, kpow S P t x y := Finset.sum_nonneg fun t _ => (hs.kpow t).1 x hx y hy
    have h2 : ∑ t ∈ range T, kpow S P t x y ≤ T := by
      refine le_trans (Finset.sum_le_sum fun t _ => kpow_le_one hs t hx hy) ?_
      simp
    exact ⟨div_nonneg h1 (Nat.cast_nonneg _), div_le_one_of_le₀ h2 (Nat.cast_nonneg _)⟩
  · exact ⟨le_refl _, zero_le_one⟩

theorem averages_step {y : X} (T : Nat) {x : X} (hx : x ∈ S) :
    ∑ z ∈ S, P x z * averages S P y T z - averages S P y T x
      = (kpow S P T x y - kpow S P 0 x y) / T := by
  have e1 : ∑ z ∈ S, P x z * averages S P y T z
      = (∑ t ∈ range T, kpow S P (t + 1) x y) / T := by
    rw [Finset.sum_congr rfl fun z hz => by
      rw [averages, if_pos hz, ← mul_div_assoc, Finset.mul_sum], ← Finset.sum_div, Finset.sum_comm]
    rfl
  rw [e1, averages, if_pos hx, ← sub_div, ← Finset.sum_sub_distrib,
    Finset.sum_range_sub (fun t => kpow S P t x y)]

theorem averages_mass (hst : Stationary S π P) {y : X} (hy : y ∈ S) (T : Nat) (hT : 0 < T) :
    ∑ z ∈ S, π z * averages S P y T z = π y := by
  rw [Finset.sum_congr rfl fun z hz => by
      rw [averages, if_pos hz, ← mul_div_assoc, Finset.mul_sum], ← Finset.sum_div, Finset.sum_comm,
    Finset.sum_congr rfl fun t _ => stationary_kpow hst t y hy]
  have : (T : ℝ) ≠ 0 := by exact_mod_cast hT.ne'
  simp only [Finset.sum_const, Finset.card_range, nsmul_eq_mul]
  field_simp

theorem limit_unique {u : Nat → ℝ} {a b : ℝ} (h : Tendsto u atTop (𝓝 a))
    (hb : MapClusterPt b atTop u) : b = a := by
  have h1 : ClusterPt b (𝓝 a) := ClusterPt.mono hb h
  have : NeBot (𝓝 b ⊓ 𝓝 a) := h1
  exact eq_of_nhds_neBot this

theorem averageConverges_of_irreducible (hs : Stochastic S P) (hst : Stationary S π P)
    (hp : ∀ x ∈ S, 0 < π x) (hi : Irreducible S P) : AverageConverges S π P := by
  intro x hx y hy
  have hZ : 0 < ∑ z ∈ S, π z := Finset.sum_pos hp ⟨x, hx⟩
  have hK : IsCompact (Set.univ.pi fun _ : X => Set.Icc (0 : ℝ) 1) :=
    isCompact_univ_pi fun _ => isCompact_Icc
  have hlim : Tendsto (averages S P y) atTop
      (𝓝 fun z => if z ∈ S then π y / ∑ z ∈ S, π z else 0) := by
    refine hK.tendsto_nhds_of_unique_mapClusterPt
      (Eventually.of_forall fun T => Set.mem_univ_pi.2 fun z => averages_mem hs hy T z) ?_
    intro f _ hf
    have hharm : ∀ v ∈ S, ∑ z ∈ S, P v z * f z = f v := by
      intro v hv
      have hc : Continuous fun g : X → ℝ => ∑ z ∈ S, P v z * g z - g v := by fun_prop
      have h1 := hf.tendsto_comp hc.continuousAt
      have h2 : Tendsto ((fun g : X → ℝ => ∑ z ∈ S, P v z * g z - g v) ∘ averages S P y) atTop
          (𝓝 0) := by
        have h3 : Tendsto (fun T : Nat => (1 : ℝ) / T) atTop (𝓝 0) := tendsto_one_div_atTop_nhds_zero_nat
        refine squeeze_zero_norm (fun T => ?_) h3
        simp only [Function.comp]
        rw [averages_step T hv, Real.norm_eq_abs, abs_div, abs_of_nonneg (Nat.cast_nonneg (α := ℝ) T)]
        refine div_le_div_of_nonneg_right ?_ (Nat.cast_nonneg T)
        have a1 := (hs.kpow T).1 v hv y hy
        have a2 := kpow_le_one hs T hv hy
        have a3 := (hs.kpow 0).1 v hv y hy
        have a4 := kpow_le_one hs 0 hv hy
        exact abs_le.2 ⟨by linarith, by linarith⟩
      have h4 := limit_unique h2 h1
      linarith
    have hmass : ∑ z ∈ S, π z * f z = π y := by
      have hc : Continuous fun g : X → ℝ => ∑ z ∈ S, π z * g z := by fun_prop
      have h1 := hf.tendsto_comp hc.continuousAt
      have h2 : Tendsto ((fun g : X → ℝ => ∑ z ∈ S, π z * g z) ∘ averages S P y) atTop (𝓝 (π y)) := by
        refine tendsto_const_nhds.congr' ?_
        filter_upwards [eventually_gt_atTop 0] with T hT
        exact (averages_mass hst hy T hT).symm
      exact limit_unique h2 h1
    have hout : ∀ v, v ∉ S → f v = 0 := by
      intro v hv
      have h1 := hf.tendsto_comp (continuous_apply v).continuousAt
      have h2 : Tendsto ((fun g : X → ℝ => g v) ∘ averages S P y) atTop (𝓝 0) := by
        refine tendsto_const_nhds.congr fun T => ?_
        simp [averages, hv]
      exact limit_unique h2 h1
    funext v
    split
    · next hv =>
      rw [eq_div_iff hZ.ne', Finset.mul_sum, ← hmass]
      refine Finset.sum_congr rfl fun z hz => ?_
      rw [harmonic_const hs hi f hharm v hv z hz]; ring
    · next hv => exact hout v hv
  have := (tendsto_pi_nhds.1 hlim) x
  rw [if_pos hx] at this
  refine this.congr fun T => ?_
  rw [averages, if_pos hx]

end Verif.Markov
