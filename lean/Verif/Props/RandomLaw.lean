import Verif.Lemmas.RandomLaw
import Verif.Props.RandomBatch
import Mathlib.Data.Nat.Factorial.BigOperators
import Mathlib.Data.Nat.Choose.Basic
import Mathlib.Tactic.FieldSimp
import Mathlib.Tactic.IntervalCases
import Mathlib.Tactic.Positivity
import Mathlib.Algebra.Order.Field.Rat
import Mathlib.Algebra.Order.Ring.Rat
import Mathlib.Logic.Equiv.Fintype
import Mathlib.Algebra.Group.End
import Mathlib.Data.Fintype.Perm

/-! C163: the distribution of `random_state`; C164: where it is not the documented uniform one, and sizes and methods that fail. -/

namespace Verif.RandomBatch
open Verif.Hilbert (Err)
open Verif.RandomState

theorem prod_getD (x : List Int) (f : Int → Nat) : ∏ i ∈ Finset.range x.length, f (x.getD i 0) = (x.map f).prod := by
  induction x with
  | nil => simp
  | cons a x ih =>
    rw [List.length_cons, Finset.prod_range_succ', List.map_cons, List.prod_cons, ← ih, mul_comm]
    simp

theorem sum_getD (x : List Int) (f : Int → Nat) : ∑ i ∈ Finset.range x.length, f (x.getD i 0) = (x.map f).sum := by
  induction x with
  | nil => simp
  | cons a x ih =>
    rw [List.length_cons, Finset.sum_range_succ', List.map_cons, List.sum_cons, ← ih, add_comm]
    simp

theorem sum_toNat (x : List Int) (h : ∀ v ∈ x, 0 ≤ v) : (((x.map Int.toNat).sum : Nat) : Int) = x.sum := by
  induction x with
  | nil => rfl
  | cons a x ih =>
    have h1 := h a (by simp)
    have h2 := ih fun v hv => h v (by simp [hv])
    simp only [List.map_cons, List.sum_cons]
    rw [Nat.cast_add, Int.toNat_of_nonneg h1, h2]

theorem sum_half (t : Nat) (x : List Int) (h : ∀ v ∈ x, -(t : Int) ≤ v ∧ v ≤ t ∧ (2 : Int) ∣ v - t) :
    2 * (((x.map fun v : Int => ((v + (t : Int)) / 2).toNat).sum : Nat) : Int) = x.sum + t * x.length := by
  induction x with
  | nil => simp
  | cons a x ih =>
    have h1 := h a (by simp)
    have h2 := ih fun v hv => h v (by simp [hv])
    have h3 : 2 * (((a + t) / 2).toNat : Int) = a + t := by omega
    simp only [List.map_cons, List.sum_cons, List.length_cons]
    rw [Nat.cast_add, Nat.cast_add, mul_add, h2, h3]
    push_cast
    ring

theorem mem_getD (x : List Int) (i : Nat) (h : i < x.length) : x.getD i 0 ∈ x := getD_mem x i h

theorem replicate_getD (N i : Nat) (a : Int) (h : i < N) : (List.replicate N a).getD i 0 = a := by
  rw [List.getD_eq_getElem _ _ (by simpa using h)]; simp

/-- from counts to probabilities. -/
theorem prob_of_ways (p M N : Nat) (f : (Nat → Nat → Nat) → Except Err (List Int)) (x : List Int) (F : Nat) (hF : 0 < F) (hM : 0 < M)
    (hN : 0 < N) (hd : N ∣ M) (h : ways p M f x * F = p.factorial * (M / N) ^ p) :
    prob p M f x = (p.factorial : ℚ) / F / (N : ℚ) ^ p := by
  obtain ⟨q, rfl⟩ := hd
  rw [Nat.mul_div_cancel_left q hN] at h
  have hq : (q : ℚ) ≠ 0 := by
    have : q ≠ 0 := by rintro rfl; simp at hM
    exact_mod_cast this
  have hF' : (F : ℚ) ≠ 0 := by exact_mod_cast hF.ne'
  have hN' : (N : ℚ) ≠ 0 := by exact_mod_cast hN.ne'
  have h' : (ways p (N * q) f x : ℚ) * F = p.factorial * (q : ℚ) ^ p := by exact_mod_cast h
  unfold prob
  push_cast
  rw [mul_pow]
  field_simp
  linarith [h']

/-- C163: a Fock space with `n_particles` ≤ `n_max` (in particular without `n_max`): each particle is put on a site at random, so the
    occupations have the multinomial distribution. -/
theorem C163_fock_multinomial (M N nmax p : Nat) (hM : Divisible M N) (hN : 0 < N) (hp : p ≤ nmax) (x : List Int)
    (hx : Member (.fock nmax N (some p)) x) :
    prob p M (fockConstrained N nmax p) x = (p.factorial : ℚ) / (x.map fun v => v.toNat.factorial).prod / (N : ℚ) ^ p := by
  obtain ⟨h1, h2, h3⟩ := hx
  have h3 := h3 p rfl
  refine prob_of_ways p M N _ x _ ?_ hM.1 hN (hM.2 N hN le_rfl) ?_
  · refine Nat.pos_of_ne_zero fun h0 => ?_
    obtain ⟨v, _, hv⟩ := List.mem_map.1 (List.prod_eq_zero_iff.1 h0)
    exact Nat.factorial_ne_zero _ hv
  · have := loopWays_multinomial M 1 (by norm_num) (fun v => v == (nmax : Int)) nmax (by intro v hv; simp; omega) N hN (hM.2 N hN le_rfl) p
      (List.replicate N 0) x (List.range N) (.inr rfl) (by simp) h1
      (by intro i hi; rw [replicate_getD _ _ _ hi]; push_cast; omega) (fun i => (x.getD i 0).toNat)
      (by intro i hi; rw [replicate_getD _ _ _ hi, Int.toNat_of_nonneg (h2 _ (mem_getD x i (by omega))).1]; ring)
      (by
        rw [← h1, sum_getD x Int.toNat]
        have := sum_toNat x fun v hv => (h2 v hv).1
        rw [h3] at this
        exact_mod_cast this)
    rw [← this, ← h1, prod_getD x fun v => v.toNat.factorial]
    rw [h1]
    rfl

/-- C163: spins larger than 1/2 with `total_sz`, at most `2s` raisings above the lowest state: the raisings are distributed on the sites at
    random. -/
theorem C163_spin_multinomial (M N t : Nat) (m : Int) (k : Nat) (hM : Divisible M N) (hN : 0 < N) (hk : (t : Int) * N + m = 2 * k)
    (hkt : k ≤ t) (x : List Int) (hx : Member (.spin t N (some m)) x) :
    prob k M (spinConstrained N t m) x = (k.factorial : ℚ) / (x.map fun v : Int => ((v + (t : Int)) / 2).toNat.factorial).prod / (N : ℚ) ^ k := by
  obtain ⟨h1, h2, h3⟩ := hx
  have h3 := h3 m rfl
  have hkn : (((t : Int) * N + m) / 2).toNat = k := by omega
  refine prob_of_ways k M N _ x _ ?_ hM.1 hN (hM.2 N hN le_rfl) ?_
  · refine Nat.pos_of_ne_zero fun h0 => ?_
    obtain ⟨v, _, hv⟩ := List.mem_map.1 (List.prod_eq_zero_iff.1 h0)
    exact Nat.factorial_ne_zero _ hv
  · have := loopWays_multinomial M 2 (by norm_num) (fun v => decide (v > (t : Int) - 1)) t (by intro v hv; simp; omega) N hN
      (hM.2 N hN le_rfl) k
      (List.replicate N (-(t : Int))) x (List.range N) (.inr rfl) (by simp) h1
      (by intro i hi; rw [replicate_getD _ _ _ hi]; push_cast; omega) (fun i => ((x.getD i 0 + t) / 2).toNat)
      (by
        intro i hi
        rw [replicate_getD _ _ _ hi]
        have := h2 _ (mem_getD x i (by omega))
        omega)
      (by
        rw [← h1, sum_getD x fun v : Int => ((v + (t : Int)) / 2).toNat]
        have := sum_half t x h2
        rw [h3, h1] at this
        have h4 : (((x.map fun v : Int => ((v + (t : Int)) / 2).toNat).sum : Nat) : Int) = k := by linarith
        exact_mod_cast h4)
    rw [← this, ← h1, prod_getD x fun v : Int => ((v + (t : Int)) / 2).toNat.factorial]
    rw [h1]
    unfold loopWays spinConstrained
    rw [hkn]

theorem prob_hardcore (M N p : Nat) (f : (Nat → Nat → Nat) → Except Err (List Int)) (x : List Int) (hM : Divisible M N) (hp : p ≤ N)
    (h : ways p M f x = p.factorial * ∏ j ∈ Finset.range p, M / (N - j)) : prob p M f x = 1 / (N.choose p : ℚ) := by
  have h1 : (∏ j ∈ Finset.range p, M / (N - j)) * N.descFactorial p = M ^ p := by
    rw [Nat.descFactorial_eq_prod_range, ← Finset.prod_mul_distrib]
    rw [Finset.prod_congr rfl fun j hj => Nat.div_mul_cancel (hM.2 (N - j) (by have := Finset.mem_range.1 hj; omega) (by omega))]
    simp
  rw [Nat.descFactorial_eq_factorial_mul_choose] at h1
  have h2 : ways p M f x * N.choose p = M ^ p := by
    rw [h, ← h1]; ring
  have hc : (N.choose p : ℚ) ≠ 0 := by exact_mod_cast (Nat.choose_pos hp).ne'
  have hMq : (M : ℚ) ^ p ≠ 0 := pow_ne_zero _ (by exact_mod_cast hM.1.ne')
  have h3 : (ways p M f x : ℚ) * N.choose p = (M : ℚ) ^ p := by exact_mod_cast h2
  unfold prob
  rw [div_eq_div_iff hMq hc, h3, one_mul]

theorem card_filter_getD (x : List Int) (q : Int → Bool) :
    ((Finset.range x.length).filter fun i => q (x.getD i 0) = true).card = (x.map fun v => if q v then 1 else 0).sum := by
  rw [← sum_getD x fun v => if q v then 1 else 0, Finset.card_filter]

/-- C163: hard-core bosons (`n_max = 1`): all states with the given number of particles are equally likely. -/
theorem C163_hardcore (M N p : Nat) (hM : Divisible M N) (hp : p ≤ N) (x : List Int) (hx : Member (.fock 1 N (some p)) x) :
    prob p M (fockConstrained N 1 p) x = 1 / (N.choose p : ℚ) := by
  obtain ⟨h1, h2, h3⟩ := hx
  have h3 := h3 p rfl
  refine prob_hardcore M N p _ x hM hp ?_
  have := loopWays_hardcore M 1 (by norm_num) (fun v => v == ((1 : Nat) : Int)) 0 (by simp) N p (List.replicate N 0) x (List.range N)
    List.nodup_range (by intro i hi; have := List.mem_range.1 hi; exact ⟨this, replicate_getD _ _ _ this⟩) (by simpa using hM.2) (by simp) h1
    ((Finset.range N).filter fun i => (fun v : Int => decide (v = 1)) (x.getD i 0) = true)
    (by intro i hi; exact List.mem_range.2 (Finset.mem_range.1 (Finset.mem_filter.1 hi).1))
    (by
      rw [← h1, card_filter_getD x fun v => decide (v = 1)]
      have e : (x.map fun v => if (fun v : Int => decide (v = 1)) v = true then 1 else 0) = x.map Int.toNat := by
        refine List.map_congr_left fun v hv => ?_
        have := h2 v hv
        have : v = 0 ∨ v = 1 := by push_cast at this; omega
        rcases this with rfl | rfl <;> rfl
      rw [e]
      have := sum_toNat x fun v hv => (h2 v hv).1
      rw [h3] at this
      exact_mod_cast this)
    (by
      intro i hi
      rw [replicate_getD _ _ _ hi]
      have := h2 _ (mem_getD x i (by omega))
      have : x.getD i 0 = 0 ∨ x.getD i 0 = 1 := by push_cast at this; omega
      rcases this with h | h
      · rw [h, if_neg (by simp only [Finset.mem_filter, h]; simp)]; rfl
      · rw [h, if_pos (by simp only [Finset.mem_filter, h]; simpa using hi)]; rfl)
  rw [List.length_range] at this
  exact this

/-- the rearrangement of a row by a permutation (`jax.random.permutation`). -/
def permuted {N : Nat} (x : List Int) (σ : Equiv.Perm (Fin N)) : List Int := List.ofFn fun i => x.getD (σ i) 0

theorem pm_counts (x : List Int) (h : ∀ v ∈ x, v = 1 ∨ v = -1) :
    (x.count 1 : Int) - x.count (-1) = x.sum ∧ x.count 1 + x.count (-1) = x.length := by
  induction x with
  | nil => simp
  | cons a x ih =>
    obtain ⟨h1, h2⟩ := ih fun v hv => h v (by simp [hv])
    rcases h a (by simp) with rfl | rfl
    · simp only [List.count_cons, List.sum_cons, List.length_cons]
      simp
      omega
    · simp only [List.count_cons, List.sum_cons, List.length_cons]
      simp
      omega

theorem pm_perm (x y : List Int) (hx : ∀ v ∈ x, v = 1 ∨ v = -1) (hy : ∀ v ∈ y, v = 1 ∨ v = -1) (hl : x.length = y.length)
    (hs : x.sum = y.sum) : x.Perm y := by
  rw [List.perm_iff_count]
  intro a
  obtain ⟨a1, a2⟩ := pm_counts x hx
  obtain ⟨b1, b2⟩ := pm_counts y hy
  by_cases h1 : a = 1
  · subst h1; omega
  · by_cases h2 : a = -1
    · subst h2; omega
    · rw [List.count_eq_zero.2 (fun h => by rcases hx a h with h | h <;> contradiction),
        List.count_eq_zero.2 (fun h => by rcases hy a h with h | h <;> contradiction)]

theorem ofFn_getD {N : Nat} (x : List Int) (h : x.length = N) : (List.ofFn fun i : Fin N => x.getD i 0) = x := by
  subst h
  refine List.ext_getElem (by simp) fun i h1 h2 => ?_
  rw [List.getElem_ofFn]
  exact List.getD_eq_getElem _ _ h2

/-- a rearrangement of a row is obtained by some permutation of the sites. -/
theorem exists_perm {N : Nat} (x y : List Int) (hx : x.length = N) (h : y.Perm x) :
    ∃ τ : Equiv.Perm (Fin N), ∀ i : Fin N, y.getD i 0 = x.getD (τ i) 0 := by
  have hy : y.length = N := h.length_eq.trans hx
  have hcard : ∀ z : List Int, z.length = N → ∀ c, Fintype.card {i : Fin N // z.getD i 0 = c} = z.count c := by
    intro z hz c
    rw [Fintype.card_subtype]
    have e : Multiset.count c ((Finset.univ : Finset (Fin N)).val.map fun i : Fin N => z.getD i 0) = z.count c := by
      rw [Fin.univ_val_map, ofFn_getD z hz, Multiset.coe_count]
    rw [← e, Multiset.count_map, Finset.card_def, Finset.filter_val]
    congr 1
    refine Multiset.filter_congr fun i _ => ?_
    exact eq_comm
  have key : ∀ c, Nonempty ({i : Fin N // y.getD i 0 = c} ≃ {i : Fin N // x.getD i 0 = c}) := fun c =>
    Fintype.card_eq.1 (by rw [hcard y hy, hcard x hx, h.count_eq])
  refine ⟨Equiv.ofFiberEquiv fun c => (key c).some, fun i => ?_⟩
  exact (Equiv.ofFiberEquiv_map (g := fun i : Fin N => x.getD i 0) (f := fun i : Fin N => y.getD i 0) (fun c => (key c).some) i).symm

/-- C163: spin 1/2 with `total_sz`: all states are equally likely, each being the result of the same number of permutations. -/
theorem C163_spin_half (N : Nat) (m : Int) (hm : m.natAbs ≤ N ∧ (2 : Int) ∣ N + m) (y z : List Int)
    (hy : Member (.spin 1 N (some m)) y) (hz : Member (.spin 1 N (some m)) z) :
    Fintype.card {σ : Equiv.Perm (Fin N) // permuted (spinHalfUnshuffled N m) σ = y} =
      Fintype.card {σ : Equiv.Perm (Fin N) // permuted (spinHalfUnshuffled N m) σ = z} ∧
    0 < Fintype.card {σ : Equiv.Perm (Fin N) // permuted (spinHalfUnshuffled N m) σ = y} := by
  have hchk : checkTotalSz 1 m N = true := checkTotalSz_of 1 N m (by simpa using hm.1) (by simpa using hm.2)
  obtain ⟨u1, u2, u3⟩ := C07_spin_half_random_state N m hchk _ (List.Perm.refl _)
  have pm : ∀ w, Member (.spin 1 N (some m)) w → ∀ v ∈ w, v = 1 ∨ v = -1 := by
    intro w hw v hv
    have := hw.2.1 v hv
    omega
  have hperm : ∀ w, Member (.spin 1 N (some m)) w → ∃ τ : Equiv.Perm (Fin N), ∀ i : Fin N, w.getD i 0 = (spinHalfUnshuffled N m).getD (τ i) 0 :=
    fun w hw => exists_perm _ w u1 (pm_perm _ _ (pm w hw) u3 (hw.1.trans u1.symm) ((hw.2.2 m rfl).trans u2.symm))
  have hiff : ∀ w, Member (.spin 1 N (some m)) w → ∀ τ : Equiv.Perm (Fin N), (∀ i : Fin N, w.getD i 0 = (spinHalfUnshuffled N m).getD (τ i) 0) →
      ∀ σ : Equiv.Perm (Fin N), permuted (spinHalfUnshuffled N m) σ = w ↔
        ∀ i : Fin N, (spinHalfUnshuffled N m).getD ((σ * τ⁻¹) i) 0 = (spinHalfUnshuffled N m).getD i 0 := by
    intro w hw τ hτ σ
    conv_lhs => rw [← ofFn_getD w hw.1]
    unfold permuted
    rw [List.ofFn_injective.eq_iff, funext_iff]
    constructor
    · intro h i
      have := h (τ⁻¹ i)
      rw [hτ, ← Equiv.Perm.mul_apply, ← Equiv.Perm.mul_apply] at this
      simpa using this
    · intro h i
      have := h (τ i)
      rw [hτ, ← this]
      simp
  have hcard : ∀ w, Member (.spin 1 N (some m)) w →
      Fintype.card {σ : Equiv.Perm (Fin N) // permuted (spinHalfUnshuffled N m) σ = w} =
      Fintype.card {ρ : Equiv.Perm (Fin N) // ∀ i : Fin N, (spinHalfUnshuffled N m).getD (ρ i) 0 = (spinHalfUnshuffled N m).getD i 0} := by
    intro w hw
    obtain ⟨τ, hτ⟩ := hperm w hw
    exact Fintype.card_congr ((Equiv.mulRight τ⁻¹).subtypeEquiv fun σ => hiff w hw τ hτ σ)
  refine ⟨(hcard y hy).trans (hcard z hz).symm, ?_⟩
  rw [hcard y hy]
  exact Fintype.card_pos_iff.2 ⟨⟨1, fun i => by simp⟩⟩

theorem exists_map {α β : Type} (f : α → β) (P : α → Prop) (l : List β) (h : ∀ v ∈ l, ∃ a, P a ∧ f a = v) :
    ∃ r : List α, r.length = l.length ∧ (∀ a ∈ r, P a) ∧ r.map f = l := by
  induction l with
  | nil => exact ⟨[], rfl, by simp, rfl⟩
  | cons v l ih =>
    obtain ⟨a, ha, hv⟩ := h v (by simp)
    obtain ⟨r, h1, h2, h3⟩ := ih fun v hv => h v (by simp [hv])
    refine ⟨a :: r, by simp [h1], ?_, by simp [hv, h3]⟩
    intro b hb
    rcases List.mem_cons.1 hb with rfl | hb
    · exact ha
    · exact h2 b hb

theorem map_unique {α β : Type} (f : α → β) (P : α → Prop) (hf : ∀ a b, P a → P b → f a = f b → a = b) (r r' : List α)
    (hr : ∀ a ∈ r, P a) (hr' : ∀ a ∈ r', P a) (h : r.map f = r'.map f) : r = r' := by
  induction r generalizing r' with
  | nil => cases r' with
    | nil => rfl
    | cons => simp at h
  | cons a r ih => cases r' with
    | nil => simp at h
    | cons b r' =>
      simp only [List.map_cons, List.cons.injEq] at h
      rw [hf a b (hr a (by simp)) (hr' b (by simp)) h.1,
        ih r' (fun c hc => hr c (by simp [hc])) (fun c hc => hr' c (by simp [hc])) h.2]

theorem exists_unique_map {α β : Type} (f : α → β) (P : α → Prop) (hf : ∀ a b, P a → P b → f a = f b → a = b) (n : Nat) (l : List β)
    (hn : l.length = n) (h : ∀ v ∈ l, ∃ a, P a ∧ f a = v) : ∃! r : List α, (r.length = n ∧ ∀ a ∈ r, P a) ∧ r.map f = l := by
  obtain ⟨r, h1, h2, h3⟩ := exists_map f P l h
  refine ⟨r, ⟨⟨h1.trans hn, h2⟩, h3⟩, ?_⟩
  rintro r' ⟨⟨_, h5⟩, h6⟩
  exact map_unique f P hf r' r h5 h2 (h6.trans h3.symm)

/-- C163: without constraint every state comes from exactly one array of drawn indices, so all states are equally likely: spins, bosons,
    qubits and custom spaces (whose local states are different). -/
theorem C163_unconstrained (N t nmax : Nat) (l : List Int) (hl : l.Nodup) (x : List Int) :
    (Member (.spin t N none) x → ∃! r : List Nat, (r.length = N ∧ ∀ v ∈ r, v < t + 1) ∧ spinUnconstrained t r = x) ∧
    (Member (.fock nmax N none) x → ∃! r : List Nat, (r.length = N ∧ ∀ v ∈ r, v < nmax + 1) ∧ (r.map fun (v : Nat) => (v : Int)) = x) ∧
    (Member (.qubit N) x → ∃! r : List Nat, (r.length = N ∧ ∀ v ∈ r, v < 2) ∧ (r.map fun (v : Nat) => (v : Int)) = x) ∧
    (Member (.custom (some l) N false) x → ∃! r : List Nat, (r.length = N ∧ ∀ v ∈ r, v < l.length) ∧ (r.map fun v => l.getD v 0) = x) := by
  refine ⟨?_, ?_, ?_, ?_⟩
  · rintro ⟨h1, h2, _⟩
    refine exists_unique_map _ (fun v => v < t + 1) (by intro a b _ _ h; omega) N x h1 fun v hv => ?_
    have := h2 v hv
    exact ⟨((v + t) / 2).toNat, by omega, by omega⟩
  · rintro ⟨h1, h2, _⟩
    refine exists_unique_map _ (fun v => v < nmax + 1) (by intro a b _ _ h; exact_mod_cast h) N x h1 fun v hv => ?_
    have := h2 v hv
    exact ⟨v.toNat, by omega, by omega⟩
  · rintro ⟨h1, h2⟩
    refine exists_unique_map _ (fun v => v < 2) (by intro a b _ _ h; exact_mod_cast h) N x h1 fun v hv => ?_
    have := h2 v hv
    exact ⟨v.toNat, by omega, by omega⟩
  · rintro ⟨h1, h2⟩
    refine exists_unique_map _ (fun v => v < l.length) ?_ N x h1 fun v hv => ?_
    · intro a b ha hb h
      rw [List.getD_eq_getElem _ _ ha, List.getD_eq_getElem _ _ hb] at h
      exact (List.Nodup.getElem_inj_iff hl).1 h
    · obtain ⟨i, hi, hiv⟩ := List.mem_iff_getElem.1 (h2 l rfl v hv)
      exact ⟨i, hi, by rw [List.getD_eq_getElem _ _ hi, hiv]⟩

example : Divisible 6 3 ∧ Member (.fock 2 3 (some 2)) [1, 0, 1] ∧ Member (.fock 2 3 (some 2)) [0, 2, 0] := by
  refine ⟨⟨by decide, fun m h1 h2 => by interval_cases m <;> decide⟩, ⟨rfl, by decide, by rintro k ⟨⟩; rfl⟩, ⟨rfl, by decide, by rintro k ⟨⟩; rfl⟩⟩

example : prob 2 6 (fockConstrained 3 2 2) [1, 0, 1] = 2 / 9 ∧ prob 2 6 (fockConstrained 3 2 2) [0, 2, 0] = 1 / 9 := by
  decide +kernel

example : prob 2 6 (spinConstrained 3 2 (-2)) [0, -2, 0] = 2 / 9 := by decide +kernel

example : prob 2 6 (fockConstrained 3 1 2) [1, 0, 1] = 1 / 3 := by decide +kernel

example : Member (.spin 1 3 (some 1)) [1, -1, 1] ∧ Member (.spin 2 3 (some (-2))) [0, -2, 0] := by
  refine ⟨⟨rfl, by decide, by rintro k ⟨⟩; rfl⟩, ⟨rfl, by decide, by rintro k ⟨⟩; rfl⟩⟩

/-! ## C164 -/

/-- C164 refuted, uniformity for bosons: with at least two sites and two particles, `n_particles ≤ n_max`, all particles on the first site is
    less likely, by a factor of the number of particles, than one of them on the second. -/
theorem C164_fock_refuted (M N nmax p : Nat) (hM : Divisible M (N + 2)) (hp : 2 ≤ p) (hpn : p ≤ nmax) :
    let a : List Int := (p : Int) :: 0 :: List.replicate N 0
    let b : List Int := ((p : Int) - 1) :: 1 :: List.replicate N 0
    Member (.fock nmax (N + 2) (some p)) a ∧ Member (.fock nmax (N + 2) (some p)) b ∧
    0 < prob p M (fockConstrained (N + 2) nmax p) a ∧
    prob p M (fockConstrained (N + 2) nmax p) b = p * prob p M (fockConstrained (N + 2) nmax p) a := by
  have hz : ∀ v ∈ List.replicate N (0 : Int), v = 0 := fun v hv => List.eq_of_mem_replicate hv
  have ha : Member (.fock nmax (N + 2) (some p)) ((p : Int) :: 0 :: List.replicate N 0) := by
    refine ⟨by simp, ?_, ?_⟩
    · intro v hv
      simp only [List.mem_cons] at hv
      rcases hv with rfl | rfl | hv
      · omega
      · omega
      · rw [hz v hv]; omega
    · rintro k ⟨⟩; simp
  have hb : Member (.fock nmax (N + 2) (some p)) (((p : Int) - 1) :: 1 :: List.replicate N 0) := by
    refine ⟨by simp, ?_, ?_⟩
    · intro v hv
      simp only [List.mem_cons] at hv
      rcases hv with rfl | rfl | hv
      · omega
      · omega
      · rw [hz v hv]; omega
    · rintro k ⟨⟩; simp
  refine ⟨ha, hb, ?_, ?_⟩
  · rw [C163_fock_multinomial M (N + 2) nmax p hM (by omega) hpn _ ha]
    simp only [List.map_cons, List.prod_cons, List.map_replicate, List.prod_replicate]
    simp
    have : (0 : ℚ) < p.factorial := by exact_mod_cast p.factorial_pos
    rw [div_self this.ne', one_div]
    positivity
  · rw [C163_fock_multinomial M (N + 2) nmax p hM (by omega) hpn _ ha, C163_fock_multinomial M (N + 2) nmax p hM (by omega) hpn _ hb]
    simp only [List.map_cons, List.prod_cons, List.map_replicate, List.prod_replicate]
    simp
    have h1 : (p.factorial : ℚ) ≠ 0 := by exact_mod_cast p.factorial_ne_zero
    have h2 : ((p - 1).factorial : ℚ) ≠ 0 := by exact_mod_cast (p - 1).factorial_ne_zero
    have h3 : (p.factorial : ℚ) = p * (p - 1).factorial := by exact_mod_cast (Nat.mul_factorial_pred (by omega)).symm
    rw [div_self h1, h3]
    field_simp

/-- C164 refuted, uniformity for spins larger than 1/2: with two raisings above the lowest state (at least two sites), both on the first site
    is half as likely as one on each of the first two. -/
theorem C164_spin_refuted (M N t : Nat) (ht : 2 ≤ t) (hM : Divisible M (N + 2)) :
    let m : Int := 4 - t * (N + 2)
    let a : List Int := (4 - (t : Int)) :: (-(t : Int)) :: List.replicate N (-(t : Int))
    let b : List Int := (2 - (t : Int)) :: (2 - (t : Int)) :: List.replicate N (-(t : Int))
    Supported (.spin t (N + 2) (some m)) ∧ Member (.spin t (N + 2) (some m)) a ∧ Member (.spin t (N + 2) (some m)) b ∧
    0 < prob 2 M (spinConstrained (N + 2) t m) a ∧
    prob 2 M (spinConstrained (N + 2) t m) b = 2 * prob 2 M (spinConstrained (N + 2) t m) a := by
  intro m a b
  have hz : ∀ v ∈ List.replicate N (-(t : Int)), v = -(t : Int) := fun v hv => List.eq_of_mem_replicate hv
  have hk : (t : Int) * ((N + 2 : Nat) : Int) + m = 2 * ((2 : Nat) : Int) := by
    show (t : Int) * ((N + 2 : Nat) : Int) + (4 - t * (N + 2)) = _
    push_cast; ring
  have hS : Supported (.spin t (N + 2) (some m)) := by
    refine ⟨by omega, ?_⟩
    rintro _ ⟨⟩
    have h4 : (4 : Int) ≤ t * (N + 2) := by
      have : (2 : Int) * 2 ≤ t * (N + 2) := by
        have h1 : (2 : Int) ≤ t := by exact_mod_cast ht
        have h2 : (2 : Int) ≤ N + 2 := by omega
        nlinarith
      linarith
    refine ⟨?_, ?_⟩
    · have : (m.natAbs : Int) ≤ ((N + 2) * t : Nat) := by
        push_cast
        rw [abs_le]
        show -(((N : Int) + 2) * t) ≤ 4 - t * (N + 2) ∧ 4 - (t : Int) * (N + 2) ≤ _
        constructor <;> nlinarith
      exact_mod_cast this
    · exact ⟨2, by exact_mod_cast hk⟩
  have hrep : (List.replicate N (-(t : Int))).sum = -(t * N : Int) := by simp [List.sum_replicate]; ring
  have ha : Member (.spin t (N + 2) (some m)) a := by
    refine ⟨by simp [a], ?_, ?_⟩
    · intro v hv
      simp only [a, List.mem_cons] at hv
      rcases hv with rfl | rfl | hv
      · omega
      · omega
      · rw [hz v hv]; omega
    · rintro k ⟨⟩
      simp only [a, m, List.sum_cons, hrep]
      ring
  have hb : Member (.spin t (N + 2) (some m)) b := by
    refine ⟨by simp [b], ?_, ?_⟩
    · intro v hv
      simp only [b, List.mem_cons] at hv
      rcases hv with rfl | rfl | hv
      · omega
      · omega
      · rw [hz v hv]; omega
    · rintro k ⟨⟩
      simp only [b, m, List.sum_cons, hrep]
      ring
  have ea : (a.map fun v : Int => ((v + (t : Int)) / 2).toNat.factorial).prod = 2 := by
    simp [a]
  have eb : (b.map fun v : Int => ((v + (t : Int)) / 2).toNat.factorial).prod = 1 := by
    simp [b]
  have pa := C163_spin_multinomial M (N + 2) t m 2 hM (by omega) hk ht a ha
  have pb := C163_spin_multinomial M (N + 2) t m 2 hM (by omega) hk ht b hb
  rw [ea] at pa
  rw [eb] at pb
  refine ⟨hS, ha, hb, ?_, ?_⟩
  · rw [pa]; simp [Nat.factorial]; positivity
  · rw [pa, pb]; simp [Nat.factorial]; ring

/-- C164 refuted, the legacy call `random_state(size=…)` (without a key) on a Fock space without `n_particles`: the largest occupation is never
    drawn, and for `n_max = 0` the call fails. -/
theorem C164_legacy_refuted (g : LegacyRng) (hg : g.Good) (b nmax N : Nat) :
    (nmax = 0 → fockLegacy g b nmax N none = .error .valueError) ∧
    (0 < nmax → ∃ rows, fockLegacy g b nmax N none = .ok rows ∧ rows.length = b ∧ ∀ r ∈ rows, r.length = N ∧ ∀ v ∈ r, 0 ≤ v ∧ v < (nmax : Int)) := by
  refine ⟨fun h => by simp [fockLegacy, h], fun h => ?_⟩
  have h' : ¬ nmax = 0 := by omega
  refine ⟨_, by simp only [fockLegacy, if_neg h']; rfl, by rw [List.length_map, hg.length], ?_⟩
  intro r hr
  obtain ⟨rs, hrs, rfl⟩ := List.mem_map.1 hr
  refine ⟨by rw [List.length_map, hg.row b N nmax rs hrs], ?_⟩
  intro v hv
  obtain ⟨k, hk, rfl⟩ := List.mem_map.1 hv
  have := hg.lt b N nmax h rs hrs k hk
  omega

/-- C164 refuted, sizes: a tuple of more than three dimensions (or of none) is not accepted, and products of spaces have no legacy call. -/
theorem C164_sizes_refuted {K : Type} (g : Rng K) (s : Space) (key : K) (l : List Nat) (hl : l = [] ∨ 3 < l.length)
    (g' : Nat → LegacyRng) (b i : Nat) (parts : List Space) :
    randomState g s key (.dims l) = .error .keyError ∧ legacyBatch g' b (.tensor parts) i = .error .attributeError ∧
    legacyBatch g' b (.doubled (.tensor parts)) i = .error .attributeError := by
  refine ⟨?_, by simp only [legacyBatch], by simp only [legacyBatch]⟩
  have : ¬ (l.length = 1 ∨ l.length = 2 ∨ l.length = 3) := by
    rcases hl with rfl | h
    · simp
    · omega
  simp only [randomState, if_neg this]

/-- C164, what holds of the legacy call: spins, constrained Fock spaces, qubits and custom spaces without constraint give states of the
    space. -/
theorem C164_legacy_partial (g : LegacyRng) (hg : g.Good) (b t N nmax : Nat) (sz : Option Int) (p : Nat) (hs : Supported (.spin t N sz))
    (hp : Supported (.fock nmax N (some p))) :
    (∃ rows, spinLegacy g b t N sz = .ok rows ∧ rows.length = b ∧ ∀ r ∈ rows, Member (.spin t N sz) r) ∧
    (∃ rows, fockLegacy g b nmax N (some p) = .ok rows ∧ rows.length = b ∧ ∀ r ∈ rows, Member (.fock nmax N (some p)) r) := by
  constructor
  · obtain ⟨ht, hm⟩ := hs
    cases sz with
    | none =>
      refine ⟨_, rfl, by rw [List.length_map, hg.length], ?_⟩
      intro r hr
      obtain ⟨rs, hrs, rfl⟩ := List.mem_map.1 hr
      obtain ⟨h1, h2⟩ := C07_spin_unconstrained t rs (fun v hv => hg.lt b N (t + 1) (by omega) rs hrs v hv)
      exact ⟨by rw [h1, hg.row b N (t + 1) rs hrs], fun v hv => spin_vals t v (h2 v hv), by simp⟩
    | some m =>
      obtain ⟨h1, h2⟩ := hm m rfl
      refine batchLoop_spec _ _ ?_ _ _ hg.integers b 0
      intro draw hd
      obtain ⟨x, g1, g2, g3, g4⟩ := C07_spin_random_state N t ht m (checkTotalSz_of t N m h1 h2) draw hd
      exact ⟨x, g1, g2, fun v hv => spin_vals t v (g4 v hv), fun m' hm' => by cases hm'; exact g3⟩
  · obtain ⟨h1, h2⟩ := hp p rfl
    refine batchLoop_spec _ _ ?_ _ _ hg.integers b 0
    intro draw hd
    obtain ⟨x, g1, g2, g3, g4⟩ := C07_fock_random_state N nmax p (by simp [checkParticles, h1, h2]) draw hd
    exact ⟨x, g1, g2, fun v hv => g4 v hv, fun m' hm' => by cases hm'; exact g3⟩

/-- C164, what holds of the legacy call for the other spaces: qubits and custom spaces without constraint give states of the space, a custom
    space with a constraint or without finitely many local states is rejected, and a doubled space gives a state for each half. -/
theorem C164_legacy_custom_partial (g : Nat → LegacyRng) (hg : ∀ i, (g i).Good) (b i N : Nat) :
    (∃ rows, legacyBatch g b (.qubit N) i = .ok rows ∧ rows.length = b ∧ ∀ r ∈ rows, Member (.qubit N) r)
    ∧ (∀ l, l ≠ [] → ∃ rows, legacyBatch g b (.custom (some l) N false) i = .ok rows ∧ rows.length = b
        ∧ ∀ r ∈ rows, Member (.custom (some l) N false) r)
    ∧ (∀ l, legacyBatch g b (.custom (some l) N true) i = .error .notImplemented)
    ∧ ∀ c, legacyBatch g b (.custom none N c) i = .error .notImplemented := by
  refine ⟨⟨((g i).array b N 2).map fun r => r.map fun (v : Nat) => (v : Int), by simp only [legacyBatch], by rw [List.length_map, (hg i).length], ?_⟩,
    fun l hl => ⟨((g i).array b N l.length).map fun r => r.map fun v => l.getD v 0,
      by simp only [legacyBatch, Bool.false_eq_true, if_false], by rw [List.length_map, (hg i).length], ?_⟩,
    fun l => by simp only [legacyBatch, if_true], fun c => by simp only [legacyBatch]⟩
  · intro r hr
    obtain ⟨rs, hrs, rfl⟩ := List.mem_map.1 hr
    simp only [Member]
    refine ⟨by rw [List.length_map, (hg i).row b N 2 rs hrs], fun v hv => ?_⟩
    obtain ⟨k, hk, rfl⟩ := List.mem_map.1 hv
    have := (hg i).lt b N 2 (by omega) rs hrs k hk
    omega
  · intro r hr
    obtain ⟨rs, hrs, rfl⟩ := List.mem_map.1 hr
    simp only [Member]
    refine ⟨by rw [List.length_map, (hg i).row b N _ rs hrs], fun l' hl' v hv => ?_⟩
    cases hl'
    obtain ⟨k, hk, rfl⟩ := List.mem_map.1 hv
    have := (hg i).lt b N l.length (List.length_pos_iff.2 hl) rs hrs k hk
    rw [List.getD_eq_getElem?_getD, List.getElem?_eq_getElem this]
    exact List.getElem_mem this

/-- a legacy generator for the examples. -/
def exLegacy : LegacyRng where
  array := fun b n m => (List.range b).map fun i => (List.range n).map fun j => (i + j) % m
  integers := fun k m => k % m

theorem exLegacy_good : exLegacy.Good where
  length := by simp [exLegacy]
  row := by
    intro b n m r hr
    obtain ⟨i, _, rfl⟩ := List.mem_map.1 hr
    simp
  lt := by
    intro b n m hm r hr v hv
    obtain ⟨i, _, rfl⟩ := List.mem_map.1 hr
    obtain ⟨j, _, rfl⟩ := List.mem_map.1 hv
    exact Nat.mod_lt _ hm
  integers := fun _ _ hm => Nat.mod_lt _ hm

example : fockLegacy exLegacy 2 2 3 none = .ok [[0, 1, 0], [1, 0, 1]] ∧ fockLegacy exLegacy 1 2 2 (some 3) = .ok [[2, 1]] ∧
    spinLegacy exLegacy 1 1 3 (some 1) = .ok [[1, -1, 1]] := by decide +kernel

end Verif.RandomBatch
