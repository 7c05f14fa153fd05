import Verif.Lemmas.Choice
import Verif.Props.Masked
import Verif.Model.Metropolis
import Mathlib.MeasureTheory.Constructions.Pi
import Mathlib.Algebra.BigOperators.Fin
import Mathlib.Data.Fin.Tuple.Basic

/-! C50 (inverse-CDF choice), C51 (autoregressive states), C49 (exact sampler). -/

namespace Verif.AutoReg

set_option linter.unusedSectionVars false

open MeasureTheory

/-! ### C50 -/

section
variable {R : Type} [Field R] [LinearOrder R] [IsStrictOrderedRing R]

/-- the index is one of the row, whenever the row has positive total and `u` is in `[0, 1)`. -/
theorem C50_range (p : List R) (hp : ∀ x ∈ p, 0 ≤ x) (hT : 0 < p.sum) (u : R) (hu : u < 1) :
    choiceIndex p u < p.length := by
  refine choice_lt p hp u (fun h => ?_) ?_
  · subst h; simp at hT
  · nlinarith

example := C50_range ([1, 0, 3] : List ℚ) (by decide +kernel) (by decide +kernel) (1 / 2) (by decide +kernel)

/-- index `k` is selected exactly by the uniforms with `p_0+…+p_{k-1} < T u ≤ p_0+…+p_k` (no lower bound
    for `k = 0`), where `T` is the total. -/
theorem C50_interval (p : List R) (hp : ∀ x ∈ p, 0 ≤ x) (u : R) (k : Nat) (hk : k < p.length) :
    choiceIndex p u = k ↔
      (k = 0 ∨ (p.take k).sum < p.sum * u) ∧ p.sum * u ≤ (p.take (k + 1)).sum :=
  choice_iff p hp u k hk

example := C50_interval ([1, 0, 3] : List ℚ) (by decide +kernel) (1 / 2) 2 (by decide)

/-- the value returned is the element of `a` at that index. -/
theorem C50_value {A : Type} (a : List A) (p : List R) (hl : p.length = a.length)
    (hp : ∀ x ∈ p, 0 ≤ x) (hT : 0 < p.sum) (u : R) (hu : u < 1) :
    batchChoice a p u = a[choiceIndex p u]? ∧ ∃ x ∈ a, batchChoice a p u = some x := by
  have h := C50_range p hp hT u hu
  have hm : min (choiceIndex p u) (a.length - 1) = choiceIndex p u := by omega
  have he : batchChoice a p u = a[choiceIndex p u]? := by unfold batchChoice; rw [hm]
  refine ⟨he, a[choiceIndex p u]'(by omega), List.getElem_mem _, ?_⟩
  rw [he, List.getElem?_eq_getElem]

example := C50_value ["a", "b", "c"] ([1, 0, 3] : List ℚ) rfl (by decide +kernel) (by decide +kernel) (1 / 2) (by decide +kernel)

/-- an entry of probability zero is selected by no positive uniform number … -/
theorem C118_support_partial (p : List R) (hp : ∀ x ∈ p, 0 ≤ x) (hT : 0 < p.sum) (u : R) (h0 : 0 < u)
    (hu : u < 1) : ∃ x, p[choiceIndex p u]? = some x ∧ 0 < x := by
  have hk := C50_range p hp hT u hu
  obtain ⟨ha, hb⟩ := (choice_iff p hp u _ hk).1 rfl
  refine ⟨_, List.getElem?_eq_getElem hk, ?_⟩
  have hpos : 0 < p.sum * u := mul_pos hT h0
  have hS : (p.take (choiceIndex p u + 1)).sum = (p.take (choiceIndex p u)).sum + p[choiceIndex p u] := by
    rw [List.take_succ_eq_append_getElem hk, List.sum_append]; simp
  rw [hS] at hb
  rcases ha with h | h
  · have h1 : (p.take (choiceIndex p u)).sum = 0 := by rw [h]; simp
    linarith
  · linarith

example := C118_support_partial ([1, 0, 3] : List ℚ) (by decide +kernel) (by decide +kernel) (1 / 2) (by decide +kernel) (by decide +kernel)

end

/-- … but `u = 0`, which the generator can return, selects entry 0 even if its probability is zero. -/
theorem C118_support_refuted :
    ¬ ∀ (p : List ℚ) (u : ℚ), (∀ x ∈ p, 0 ≤ x) → 0 < p.sum → 0 ≤ u → u < 1 →
      ∃ x, p[choiceIndex p u]? = some x ∧ 0 < x := by
  intro h
  obtain ⟨x, hx, hx0⟩ := h [0, 1] 0 (by decide) (by simp) le_rfl one_pos
  have h0 : choiceIndex ([0, 1] : List ℚ) 0 = 0 := by decide +kernel
  rw [h0] at hx
  simp at hx
  exact absurd hx0 (by rw [← hx]; exact lt_irrefl _)

/-- the uniforms in `[0, 1)` selecting index `k` have measure `p_k / T`. -/
theorem C50_probability (p : List ℝ) (hp : ∀ x ∈ p, 0 ≤ x) (hT : 0 < p.sum) (k : Nat)
    (hk : k < p.length) :
    volume {u : ℝ | (0 ≤ u ∧ u < 1) ∧ choiceIndex p u = k} = ENNReal.ofReal (p[k] / p.sum) :=
  choice_volume p hp hT k hk

example := C50_probability [1, 0, 3] (by simp) (by norm_num) 2 (by simp)

example : choiceIndex ([1, 0, 3] : List ℚ) (1/2) = 2 ∧ choiceIndex ([1, 0, 3] : List ℚ) (1/4) = 0 := by
  decide +kernel

/-! ### C51 -/

/-- the network is autoregressive: the output at site `t` only reads the sites before `t`. -/
def Autoregressive (net : Nat → List Int → List ℝ) : Prop :=
  ∀ t σ σ', (∀ s, s < t → σ[s]? = σ'[s]?) → net t σ = net t σ'

theorem sumexp_pos (x : List ℝ) (h : x ≠ []) : 0 < (x.map fun w => Real.exp (2 * w)).sum := by
  cases x with
  | nil => exact absurd rfl h
  | cons a l =>
    rw [List.map_cons, List.sum_cons]
    refine add_pos_of_pos_of_nonneg (Real.exp_pos _) (List.sum_nonneg ?_)
    intro y hy
    obtain ⟨w, _, rfl⟩ := List.mem_map.1 hy
    exact (Real.exp_pos _).le

theorem l2_exp (x : List ℝ) (h : x ≠ []) :
    (l2Normalize x).map (fun v => Real.exp (2 * v))
      = x.map fun v => Real.exp (2 * v) / (x.map fun w => Real.exp (2 * w)).sum := by
  have hp := sumexp_pos x h
  unfold l2Normalize
  rw [List.map_map]
  refine List.map_congr_left fun v _ => ?_
  simp only [Function.comp]
  rw [show 2 * (v - 1 / 2 * Real.log (x.map fun w => Real.exp (2 * w)).sum)
    = 2 * v - Real.log (x.map fun w => Real.exp (2 * w)).sum by ring, Real.exp_sub, Real.exp_log hp]

theorem sum_map_div (l : List ℝ) (f : ℝ → ℝ) (c : ℝ) :
    (l.map fun x => f x / c).sum = (l.map f).sum / c := by
  induction l with
  | nil => simp
  | cons a l ih => simp only [List.map_cons, List.sum_cons, ih]; ring

/-- the normalisation gives conditional probabilities: positive, adding up to 1, and proportional to
    `exp(2 x)`. -/
theorem C51_conditional (net : Nat → List Int → List ℝ) (t : Nat) (σ : List Int) (h : net t σ ≠ []) :
    (conditional net t σ).sum = 1 ∧ (∀ q ∈ conditional net t σ, 0 < q) ∧
    ∀ i : Nat, (conditional net t σ)[i]? = ((net t σ)[i]?).map fun v =>
      Real.exp (2 * v) / ((net t σ).map fun w => Real.exp (2 * w)).sum := by
  have he : conditional net t σ = (net t σ).map fun v =>
      Real.exp (2 * v) / ((net t σ).map fun w => Real.exp (2 * w)).sum := l2_exp _ h
  have hp := sumexp_pos (net t σ) h
  rw [he]
  refine ⟨?_, ?_, ?_⟩
  · rw [sum_map_div, div_self hp.ne']
  · intro q hq
    obtain ⟨v, _, rfl⟩ := List.mem_map.1 hq
    exact div_pos (Real.exp_pos _) hp
  · intro i; rw [List.getElem?_map]

example := C51_conditional (fun _ σ => [0, (σ.length : ℝ)]) 1 [1, -1] (by simp)

theorem exp_sum (l : List ℝ) : Real.exp l.sum = (l.map Real.exp).prod := by
  induction l with
  | nil => simp
  | cons a l ih => simp [Real.exp_add, ih]

theorem two_sum (l : List Nat) (f : Nat → ℝ) : 2 * (l.map f).sum = (l.map fun t => 2 * f t).sum := by
  induction l with
  | nil => simp
  | cons a l ih => simp only [List.map_cons, List.sum_cons, mul_add, ih]

/-- `|ψ(σ)|²` is the product of the conditional probabilities of the values of `σ`. -/
theorem C51_product (net : Nat → List Int → List ℝ) (number : Int → Nat) (σ : List Int)
    (hn : ∀ t, t < σ.length → number (σ.getD t 0) < (net t σ).length) :
    Real.exp (2 * logPsi net number σ)
      = ((List.range σ.length).map fun t => (conditional net t σ).getD (number (σ.getD t 0)) 0).prod := by
  rw [logPsi, two_sum, exp_sum, List.map_map]
  congr 1
  refine List.map_congr_left fun t ht => ?_
  have h := hn t (List.mem_range.1 ht)
  have hl : number (σ.getD t 0) < (condLogPsi net t σ).length := by
    simpa [condLogPsi, l2Normalize] using h
  simp only [Function.comp, conditional, List.getD_eq_getElem?_getD, List.getElem?_map]
  rw [List.getD_eq_getElem?_getD] at hl
  rw [List.getElem?_eq_getElem hl]
  simp

example := C51_product (fun _ σ => [0, (σ.length : ℝ)]) Int.toNat [1, 0] (by simp only [List.length_cons, List.length_nil]; decide)

theorem sum_prod_chain (m : Nat) (hm : 0 < m) : ∀ (N : Nat) (q : Fin N → (Fin N → Fin m) → Fin m → ℝ),
    (∀ t c c', (∀ s, s < t → c s = c' s) → q t c = q t c') →
    (∀ t c, ∑ i, q t c i = 1) → ∑ c : Fin N → Fin m, ∏ t, q t c (c t) = 1 := by
  intro N
  induction N with
  | zero => intro q _ _; simp
  | succ N ih =>
    intro q hq hs
    rw [← (Fin.consEquiv fun _ : Fin (N + 1) => Fin m).sum_comp, Fintype.sum_prod_type]
    have key : ∀ a : Fin m, ∑ c : Fin N → Fin m,
        ∏ t, q t ((Fin.consEquiv fun _ : Fin (N + 1) => Fin m) (a, c))
          ((Fin.consEquiv fun _ : Fin (N + 1) => Fin m) (a, c) t)
        = q 0 (Fin.cons a fun _ => a) a := by
      intro a
      simp only [Fin.consEquiv, Equiv.coe_fn_mk, Fin.prod_univ_succ, Fin.cons_zero, Fin.cons_succ]
      have h0 : ∀ c : Fin N → Fin m, q 0 (Fin.cons a c : Fin (N + 1) → Fin m)
          = q 0 (Fin.cons a fun _ => a) := fun c => hq 0 _ _ fun s hs => absurd hs (by simp)
      simp only [h0]
      rw [← Finset.mul_sum, ih (fun t c => q t.succ (Fin.cons a c)), mul_one]
      · intro t c c' h
        refine hq _ _ _ fun s hs => ?_
        induction s using Fin.cases with
        | zero => simp
        | succ s' =>
          simp only [Fin.cons_succ]
          exact h s' (by simpa using hs)
      · intro t c; exact hs _ _
    simp only [key]
    have h0 : ∀ a : Fin m, q 0 (Fin.cons a fun _ => a : Fin (N + 1) → Fin m)
        = q 0 (fun _ => ⟨0, hm⟩) := fun a => hq 0 _ _ fun s hs => absurd hs (by simp)
    simp only [h0]
    exact hs _ _

theorem prod_range_fin (n : Nat) (f : Nat → ℝ) :
    ((List.range n).map f).prod = ∏ i : Fin n, f i := by
  induction n with
  | zero => simp
  | succ n ih => rw [List.range_succ, Fin.prod_univ_castSucc]; simp [ih]

/-- What is assumed of a network on `N` sites with the local states `ls`: it is autoregressive, it
    returns one number per local state, and `number` is the position in `ls`. -/
structure NetOK (net : Nat → List Int → List ℝ) (ls : List Int) (number : Int → Nat) (N : Nat) :
    Prop where
  auto : ∀ t, t < N → ∀ σ σ' : List Int, (∀ s : Nat, s < t → σ[s]? = σ'[s]?) → net t σ = net t σ'
  len : ∀ t, t < N → ∀ σ, (net t σ).length = ls.length
  num : ∀ (i : Nat) (h : i < ls.length), number ls[i] = i
  ne : ls ≠ []

theorem NetOK.cond_auto {net : Nat → List Int → List ℝ} {ls : List Int} {number : Int → Nat} {N : Nat}
    (h : NetOK net ls number N) (t : Nat) (ht : t < N) (σ σ' : List Int)
    (hs : ∀ s : Nat, s < t → σ[s]? = σ'[s]?) : conditional net t σ = conditional net t σ' := by
  simp only [conditional, condLogPsi, h.auto t ht σ σ' hs]

theorem NetOK.net_ne {net : Nat → List Int → List ℝ} {ls : List Int} {number : Int → Nat} {N : Nat}
    (h : NetOK net ls number N) (t : Nat) (ht : t < N) (σ : List Int) : net t σ ≠ [] := by
  intro he
  have := h.len t ht σ
  rw [he] at this
  exact h.ne (List.eq_nil_of_length_eq_zero this.symm)

theorem cond_length (net : Nat → List Int → List ℝ) (t : Nat) (σ : List Int) :
    (conditional net t σ).length = (net t σ).length := by
  simp [conditional, condLogPsi, l2Normalize]

/-- **Normalisation.** The sum of `|ψ|²` over all configurations is 1. -/
theorem C51_normalised (net : Nat → List Int → List ℝ) (ls : List Int) (number : Int → Nat) (N : Nat)
    (h : NetOK net ls number N) :
    ∑ c : Fin N → Fin ls.length,
      Real.exp (2 * logPsi net number (List.ofFn fun i => ls.get (c i))) = 1 := by
  have hm : 0 < ls.length := List.length_pos_iff.2 h.ne
  have hget : ∀ (c : Fin N → Fin ls.length) (t : Fin N),
      (List.ofFn fun i => ls.get (c i)).getD t 0 = ls.get (c t) := by
    intro c t; simp [List.getD_eq_getElem?_getD]
  have hnum : ∀ j : Fin ls.length, number (ls.get j) = j := fun j => h.num j j.2
  rw [← sum_prod_chain ls.length hm N
    (fun t c i => (conditional net t (List.ofFn fun i => ls.get (c i))).getD i 0)]
  · refine Finset.sum_congr rfl fun c _ => ?_
    rw [C51_product net number _ ?_]
    · simp only [List.length_ofFn]
      rw [prod_range_fin]
      refine Finset.prod_congr rfl fun t _ => ?_
      rw [hget, hnum]
    · intro t ht
      rw [List.length_ofFn] at ht
      have := hget c ⟨t, ht⟩
      simp only at this
      rw [this, hnum, h.len t ht]
      exact (c ⟨t, ht⟩).2
  · intro t c c' hc
    rw [h.cond_auto t t.2 _ (List.ofFn fun i => ls.get (c' i))]
    intro s hs
    have hsN : s < N := lt_trans hs t.2
    simp only [List.getElem?_ofFn, hsN, dif_pos]
    rw [hc ⟨s, hsN⟩ hs]
  · intro t c
    have h1 := (C51_conditional net t (List.ofFn fun i => ls.get (c i)) (h.net_ne t t.2 _)).1
    have hl : (conditional net t (List.ofFn fun i => ls.get (c i))).length = ls.length := by
      rw [cond_length, h.len t t.2]
    rw [← h1]
    generalize conditional net t (List.ofFn fun i => ls.get (c i)) = l at hl
    rw [← hl]
    conv_rhs => rw [← List.ofFn_getElem (xs := l)]
    rw [List.sum_ofFn]
    refine Finset.sum_congr rfl fun i _ => ?_
    simp [List.getD_eq_getElem?_getD]

/-! the sampler -/

theorem arSample_succ (net : Nat → List Int → List ℝ) (ls σ0 : List Int) (us : Nat → ℝ) (k : Nat) :
    (List.range (k + 1)).foldl (fun σ t => arStep net ls σ t (us t)) σ0
      = arStep net ls ((List.range k).foldl (fun σ t => arStep net ls σ t (us t)) σ0) k (us k) := by
  rw [List.range_succ, List.foldl_append]; rfl

theorem arSample_length (net : Nat → List Int → List ℝ) (ls σ0 : List Int) (us : Nat → ℝ) (k : Nat) :
    ((List.range k).foldl (fun σ t => arStep net ls σ t (us t)) σ0).length = σ0.length := by
  induction k with
  | zero => rfl
  | succ k ih => rw [arSample_succ]; simpa [arStep] using ih

theorem arSample_stable (net : Nat → List Int → List ℝ) (ls σ0 : List Int) (us : Nat → ℝ) (k s d : Nat)
    (hs : s < k) :
    ((List.range (k + d)).foldl (fun σ t => arStep net ls σ t (us t)) σ0)[s]?
      = ((List.range k).foldl (fun σ t => arStep net ls σ t (us t)) σ0)[s]? := by
  induction d with
  | zero => rfl
  | succ d ih =>
    rw [← Nat.add_assoc, arSample_succ, arStep, List.getElem?_set_ne (by omega), ih]

/-- The configuration returned by the sampler has, at every site, the value chosen with the conditional
    probabilities of the configuration itself. -/
theorem C51_sample_site (net : Nat → List Int → List ℝ) (ls : List Int) (number : Int → Nat) (N : Nat)
    (h : NetOK net ls number N) (us : Nat → ℝ) (t : Nat) (ht : t < N) :
    (arSample net ls N us)[t]?
      = some ((batchChoice ls (conditional net t (arSample net ls N us)) (us t)).getD 0) := by
  have hst : ∀ s : Nat, s < t → ((List.range t).foldl (fun σ t => arStep net ls σ t (us t))
      (List.replicate N 0))[s]? = (arSample net ls N us)[s]? := by
    intro s hs
    have := arSample_stable net ls (List.replicate N 0) us t s (N - t) hs
    rw [show t + (N - t) = N by omega] at this
    exact this.symm
  have h1 := arSample_stable net ls (List.replicate N 0) us (t + 1) t (N - (t + 1)) (by omega)
  rw [show t + 1 + (N - (t + 1)) = N by omega] at h1
  rw [← h.cond_auto t ht _ _ hst]
  refine Eq.trans h1 ?_
  rw [arSample_succ, arStep, List.getElem?_set_self (by rw [arSample_length]; simpa using ht)]

/-- **Sampling.** `τ` is returned exactly when every uniform number falls in the interval of `τ_t` in
    the conditional distribution given the earlier values. -/
theorem C51_sample_iff (net : Nat → List Int → List ℝ) (ls : List Int) (number : Int → Nat) (N : Nat)
    (h : NetOK net ls number N) (us : Nat → ℝ) (hu : ∀ t, us t < 1) (τ : List Int)
    (hl : τ.length = N) (hτ : ∀ x ∈ τ, x ∈ ls) :
    arSample net ls N us = τ ↔
      ∀ t, t < N → choiceIndex (conditional net t τ) (us t) = number (τ.getD t 0) := by
  have hidx : ∀ σ t, t < N → choiceIndex (conditional net t σ) (us t) < ls.length ∧
      (batchChoice ls (conditional net t σ) (us t)).getD 0
        = ls.getD (choiceIndex (conditional net t σ) (us t)) 0 := by
    intro σ t ht
    obtain ⟨c1, c2, _⟩ := C51_conditional net t σ (h.net_ne t ht σ)
    have hr := C50_range _ (fun x hx => (c2 x hx).le) (by rw [c1]; exact one_pos) (us t) (hu t)
    rw [cond_length, h.len t ht] at hr
    refine ⟨hr, ?_⟩
    rw [(C50_value ls _ (by rw [cond_length, h.len t ht]) (fun x hx => (c2 x hx).le)
      (by rw [c1]; exact one_pos) (us t) (hu t)).1, List.getD_eq_getElem?_getD]
  constructor
  · intro he t ht
    have h1 := C51_sample_site net ls number N h us t ht
    rw [he] at h1
    obtain ⟨h2, h3⟩ := hidx τ t ht
    rw [h3] at h1
    rw [List.getD_eq_getElem?_getD, h1, Option.getD_some, List.getD_eq_getElem?_getD,
      List.getElem?_eq_getElem h2, Option.getD_some, h.num _ h2]
  · intro hc
    have hlen : (arSample net ls N us).length = N := by
      simpa [arSample] using arSample_length net ls (List.replicate N 0) us N
    have key : ∀ t, t < N → (arSample net ls N us)[t]? = τ[t]? := by
      intro t
      induction t using Nat.strong_induction_on with
      | _ t ih =>
        intro ht
        rw [C51_sample_site net ls number N h us t ht,
          h.cond_auto t ht _ τ (fun s hs => ih s hs (by omega)), (hidx τ t ht).2, hc t ht]
        have htl : t < τ.length := by omega
        have hm := hτ _ (List.getElem_mem htl)
        obtain ⟨i, hi, hie⟩ := List.mem_iff_getElem.1 hm
        rw [List.getD_eq_getElem?_getD (l := τ), List.getElem?_eq_getElem htl, Option.getD_some, ← hie,
          h.num i hi, List.getD_eq_getElem?_getD, List.getElem?_eq_getElem hi, Option.getD_some]
    refine List.ext_getElem? fun t => ?_
    by_cases ht : t < N
    · exact key t ht
    · rw [List.getElem?_eq_none (by omega), List.getElem?_eq_none (by omega)]

/-- uniform numbers for `N` sites, as read by the sampler. -/
def extend (N : Nat) (us : Fin N → ℝ) (t : Nat) : ℝ := if h : t < N then us ⟨t, h⟩ else 0

/-- **Direct sampling.** With independent uniform numbers in `[0, 1)` the probability that the sampler
    returns `τ` is `|ψ(τ)|²`. -/
theorem C51_probability (net : Nat → List Int → List ℝ) (ls : List Int) (number : Int → Nat) (N : Nat)
    (h : NetOK net ls number N) (τ : List Int) (hl : τ.length = N) (hτ : ∀ x ∈ τ, x ∈ ls) :
    volume {us : Fin N → ℝ | (∀ i, 0 ≤ us i ∧ us i < 1) ∧ arSample net ls N (extend N us) = τ}
      = ENNReal.ofReal (Real.exp (2 * logPsi net number τ)) := by
  have hnum : ∀ t, t < N → number (τ.getD t 0) < ls.length := by
    intro t ht
    have htl : t < τ.length := by omega
    obtain ⟨i, hi, hie⟩ := List.mem_iff_getElem.1 (hτ _ (List.getElem_mem htl))
    rw [List.getD_eq_getElem?_getD, List.getElem?_eq_getElem htl, Option.getD_some, ← hie, h.num i hi]
    exact hi
  have hset : {us : Fin N → ℝ | (∀ i, 0 ≤ us i ∧ us i < 1) ∧ arSample net ls N (extend N us) = τ}
      = Set.pi Set.univ fun i : Fin N => {u : ℝ | (0 ≤ u ∧ u < 1) ∧
          choiceIndex (conditional net i τ) u = number (τ.getD i 0)} := by
    ext us
    simp only [Set.mem_ofPred_eq, Set.mem_pi, Set.mem_univ, true_imp_iff]
    constructor
    · rintro ⟨h1, h2⟩ i
      have hb : ∀ t, extend N us t < 1 := by
        intro t; unfold extend; split
        · exact (h1 _).2
        · exact one_pos
      have := (C51_sample_iff net ls number N h _ hb τ hl hτ).1 h2 i i.2
      refine ⟨h1 i, ?_⟩
      rw [← this]; simp [extend]
    · intro h1
      refine ⟨fun i => (h1 i).1, ?_⟩
      have hb : ∀ t, extend N us t < 1 := by
        intro t; unfold extend; split
        · exact (h1 _).1.2
        · exact one_pos
      refine (C51_sample_iff net ls number N h _ hb τ hl hτ).2 fun t ht => ?_
      rw [← (h1 ⟨t, ht⟩).2]; simp [extend, ht]
  rw [hset, volume_pi_pi]
  have hcond : ∀ i : Fin N, volume {u : ℝ | (0 ≤ u ∧ u < 1) ∧
      choiceIndex (conditional net i τ) u = number (τ.getD i 0)}
      = ENNReal.ofReal ((conditional net i τ).getD (number (τ.getD i 0)) 0) := by
    intro i
    obtain ⟨c1, c2, _⟩ := C51_conditional net i τ (h.net_ne i i.2 τ)
    have hk : number (τ.getD i 0) < (conditional net i τ).length := by
      rw [cond_length, h.len i i.2]; exact hnum i i.2
    rw [C50_probability _ (fun x hx => (c2 x hx).le) (by rw [c1]; exact one_pos) _ hk, c1, div_one,
      List.getD_eq_getElem?_getD (l := conditional net i τ), List.getElem?_eq_getElem hk,
      Option.getD_some]
  simp only [hcond]
  rw [C51_product net number τ (fun t ht => by
    rw [h.len t (by omega)]; exact hnum t (by omega)), hl, prod_range_fin, ENNReal.ofReal_prod_of_nonneg]
  intro i _
  obtain ⟨_, c2, _⟩ := C51_conditional net i τ (h.net_ne i i.2 τ)
  rw [List.getD_eq_getElem?_getD]
  rcases hx : (conditional net i τ)[number (τ.getD i 0)]? with _ | x
  · simp
  · exact (c2 x (List.mem_of_getElem? hx)).le

/-! local states and networks of masked layers -/

/-- the local states of `Spin(s = (n-1)/2)` (netket/hilbert/spin.py: `_check_total_sz`,
    `local_states = [-n+1, -n+3, ..., n-1]`). -/
def spinStates (n : Nat) : List Int := (List.range n).map fun i : Nat => 2 * (i : Int) - (n - 1)

/-- the local states of `Fock(n_max = n-1)`. -/
def fockStates (n : Nat) : List Int := (List.range n).map fun i : Nat => (i : Int)

theorem C51_spin_number (n i : Nat) (h : i < (spinStates n).length) :
    spinNumber n (spinStates n)[i] = i := by
  simp only [spinStates, List.getElem_map, List.getElem_range, spinNumber]
  omega

example := C51_spin_number 3 2 (by decide)

theorem C51_fock_number (n i : Nat) (h : i < (fockStates n).length) :
    fockNumber (fockStates n)[i] = i := by
  simp [fockStates, fockNumber]

example := C51_fock_number 3 2 (by decide)

/-- the network of a stack of layers: `re` of output feature `f < m` at site `t`, reading the
    configuration through `cast` (models/autoreg.py:177-192). -/
def netOf {R : Type} (re : R → ℝ) (cast : Int → R) (m : Nat)
    (layers : (Nat → Nat → R) → Nat → Nat → R) (t : Nat) (σ : List Int) : List ℝ :=
  (List.range m).map fun f => re (layers (fun s _ => cast (σ.getD s 0)) t f)

theorem netOf_ok {R : Type} [CommSemiring R] (re : R → ℝ) (cast : Int → R)
    (layers : (Nat → Nat → R) → Nat → Nat → R) (N : Nat) (ls : List Int) (number : Int → Nat)
    (hc : Causal true N 1 ls.length layers) (hn : ∀ (i : Nat) (h : i < ls.length), number ls[i] = i)
    (hne : ls ≠ []) : NetOK (netOf re cast ls.length layers) ls number N where
  auto := by
    intro t ht σ σ' hs
    unfold netOf
    refine List.map_congr_left fun f hf => ?_
    rw [hc _ (fun s _ => cast (σ'.getD s 0)) t ht ?_ f (List.mem_range.1 hf)]
    intro s hst g _
    simp only [if_true] at hst
    rw [List.getD_eq_getElem?_getD, hs s hst, ← List.getD_eq_getElem?_getD]
  len := by intro t _ σ; simp [netOf]
  num := hn
  ne := hne

/-- **ARNNDense on spins or bosons** with any number of layers, features, weights and activation:
    normalised, and sampled with the probabilities `|ψ|²`. -/
theorem C51_arnn_dense {R : Type} [CommSemiring R] (re : R → ℝ) (cast : Int → R) (act : R → R)
    (N F : Nat) (k0 b0 : Nat → Nat → R) (rest : List (Nat × (Nat → Nat → R) × (Nat → Nat → R)))
    (ls : List Int) (number : Int → Nat)
    (hF : lastF F (denseRest N F rest) = ls.length)
    (hls : ∃ n, 0 < n ∧ ((ls = spinStates n ∧ number = spinNumber n) ∨
      (ls = fockStates n ∧ number = fockNumber))) :
    let net := netOf re cast ls.length
      (stack act (maskedDense true N 1 F k0 b0 :: (denseRest N F rest).map (·.1)))
    (∑ c : Fin N → Fin ls.length,
      Real.exp (2 * logPsi net number (List.ofFn fun i => ls.get (c i))) = 1) ∧
    ∀ τ : List Int, τ.length = N → (∀ x ∈ τ, x ∈ ls) →
      volume {us : Fin N → ℝ | (∀ i, 0 ≤ us i ∧ us i < 1) ∧ arSample net ls N (extend N us) = τ}
        = ENNReal.ofReal (Real.exp (2 * logPsi net number τ)) := by
  intro net
  have hok : NetOK net ls number N := by
    have hc := C52_arnn_dense act N 1 F k0 b0 rest
    rw [hF] at hc
    refine netOf_ok re cast _ N ls number hc ?_ ?_
    · obtain ⟨n, _, ⟨rfl, rfl⟩ | ⟨rfl, rfl⟩⟩ := hls
      · exact C51_spin_number n
      · exact C51_fock_number n
    · obtain ⟨n, hn, ⟨rfl, rfl⟩ | ⟨rfl, rfl⟩⟩ := hls
      · intro h; simp [spinStates] at h; omega
      · intro h; simp [fockStates] at h; omega
  exact ⟨C51_normalised net ls number N hok, fun τ h1 h2 => C51_probability net ls number N hok τ h1 h2⟩

/-- a two-layer network of 3 spins meets the hypotheses. -/
example : lastF 4 (denseRest (R := ℝ) 3 4 [(2, fun _ _ => 1, fun _ _ => 0)]) = (spinStates 2).length ∧
    spinStates 2 = [-1, 1] := by decide

/-- a one-site network with two local states. -/
noncomputable def net2 : Nat → List Int → List ℝ := fun _ _ => [0, Real.log 2]

theorem net2_ok : NetOK net2 (fockStates 2) fockNumber 1 where
  auto := fun _ _ _ _ _ => rfl
  len := fun _ _ _ => rfl
  num := C51_fock_number 2
  ne := by decide

/-- `machine_pow` is ignored: the configurations are not distributed as `|ψ|^machine_pow`. -/
theorem C118_machine_pow_refuted :
    ¬ ∀ (pow : Nat) (net : Nat → List Int → List ℝ) (ls : List Int) (number : Int → Nat) (N : Nat),
      0 < pow → NetOK net ls number N → ∀ τ : List Int, τ.length = N → (∀ x ∈ τ, x ∈ ls) →
      volume {us : Fin N → ℝ | (∀ i, 0 ≤ us i ∧ us i < 1) ∧ arSample net ls N (extend N us) = τ}
        = ENNReal.ofReal (Real.exp (pow * logPsi net number τ) /
            ∑ c : Fin N → Fin ls.length,
              Real.exp (pow * logPsi net number (List.ofFn fun i => ls.get (c i)))) := by
  intro h
  have h1 := h 1 net2 (fockStates 2) fockNumber 1 one_pos net2_ok [1] rfl (by decide)
  rw [C51_probability net2 (fockStates 2) fockNumber 1 net2_ok [1] rfl (by decide)] at h1
  have hn := C51_normalised net2 (fockStates 2) fockNumber 1 net2_ok
  have hsum : ∀ g : (Fin 1 → Fin (fockStates 2).length) → ℝ,
      ∑ c, g c = g (fun _ => (0 : Fin 2)) + g (fun _ => (1 : Fin 2)) := by
    intro g
    rw [← (Equiv.funUnique (Fin 1) (Fin (fockStates 2).length)).symm.sum_comp]
    exact Fin.sum_univ_two (fun i : Fin 2 => g _)
  have e0 : (List.ofFn fun i : Fin 1 => (fockStates 2).get ((fun _ => (0 : Fin 2)) i)) = [0] := by decide
  have e1 : (List.ofFn fun i : Fin 1 => (fockStates 2).get ((fun _ => (1 : Fin 2)) i)) = [1] := by decide
  rw [hsum] at hn h1
  rw [show (List.ofFn fun i : Fin 1 => (fockStates 2).get ((fun _ => (0 : Fin 2)) i)) = [0] by decide,
    show (List.ofFn fun i : Fin 1 => (fockStates 2).get ((fun _ => (1 : Fin 2)) i)) = [1] by decide] at hn h1
  have hl : logPsi net2 fockNumber [1] = logPsi net2 fockNumber [0] + Real.log 2 := by
    simp [logPsi, net2, condLogPsi, l2Normalize, fockNumber]; ring
  have he : Real.exp (logPsi net2 fockNumber [1]) = 2 * Real.exp (logPsi net2 fockNumber [0]) := by
    rw [hl, Real.exp_add, Real.exp_log (by norm_num)]; ring
  have hsq : ∀ x : ℝ, Real.exp (2 * x) = Real.exp x ^ 2 := by
    intro x; rw [two_mul, Real.exp_add, sq]
  simp only [Nat.cast_one, one_mul] at h1
  rw [hsq, he] at h1
  rw [hsq, hsq, he] at hn
  have hpos := Real.exp_pos (logPsi net2 fockNumber [0])
  generalize Real.exp (logPsi net2 fockNumber [0]) = a at *
  rw [ENNReal.ofReal_eq_ofReal_iff (by positivity) (by positivity)] at h1
  rw [eq_div_iff (by positivity)] at h1
  nlinarith

/-! ### C49: exact sampler -/

theorem abs_sum_pos (amps : List ℂ) (pow : Nat) (h : ∃ a ∈ amps, a ≠ 0) :
    0 < (amps.map fun a => ‖a ^ pow‖).sum := by
  induction amps with
  | nil => simp at h
  | cons b l ih =>
    rw [List.map_cons, List.sum_cons]
    have hnn : 0 ≤ (l.map fun a => ‖a ^ pow‖).sum := List.sum_nonneg (by
      intro y hy; obtain ⟨w, _, rfl⟩ := List.mem_map.1 hy; exact norm_nonneg _)
    by_cases hb : b = 0
    · obtain ⟨a, ha, ha0⟩ := h
      rcases List.mem_cons.1 ha with rfl | ha
      · exact absurd hb ha0
      · exact add_pos_of_nonneg_of_pos (norm_nonneg _) (ih ⟨a, ha, ha0⟩)
    · exact add_pos_of_pos_of_nonneg (norm_pos_iff.2 (pow_ne_zero _ hb)) hnn

/-- after a reset, entry `i` of the pdf is `|ψ_i|^pow / Σ_j |ψ_j|^pow`; the pdf is non-negative and adds
    up to 1. -/
theorem C49_pdf {Key : Type} (amps : List ℂ) (pow : Nat) (st : ExactState ℝ Key)
    (h : ∃ a ∈ amps, a ≠ 0) :
    (exactReset amps pow st).pdf.length = amps.length ∧
    (∀ (i : Nat) (hi : i < amps.length), (exactReset amps pow st).pdf[i]?
      = some (‖amps[i]‖ ^ pow / (amps.map fun a => ‖a‖ ^ pow).sum)) ∧
    (∀ x ∈ (exactReset amps pow st).pdf, 0 ≤ x) ∧ (exactReset amps pow st).pdf.sum = 1 := by
  have hp := abs_sum_pos amps pow h
  refine ⟨by simp [exactReset], ?_, ?_, ?_⟩
  · intro i hi
    simp [exactReset, List.getElem?_eq_getElem hi, norm_pow]
  · intro x hx
    simp only [exactReset, List.mem_map] at hx
    obtain ⟨y, ⟨a, _, rfl⟩, rfl⟩ := hx
    exact div_nonneg (norm_nonneg _) hp.le
  · simp only [exactReset]
    have := sum_map_div (amps.map fun a => ‖a ^ pow‖) id (amps.map fun a => ‖a ^ pow‖).sum
    simp only [id] at this
    rw [this, List.map_id, div_self hp.ne']

example := C49_pdf (Key := Nat) [1, 0, Complex.I] 2 ⟨[0, 0, 0], 0⟩ ⟨1, by simp, one_ne_zero⟩

/-- the normalisation of the amplitudes does not matter. -/
theorem C49_scale {Key : Type} (amps : List ℂ) (pow : Nat) (st : ExactState ℝ Key) (c : ℂ) (hc : c ≠ 0) :
    exactReset (amps.map fun a => c * a) pow st = exactReset amps pow st := by
  have hn : ‖c ^ pow‖ ≠ 0 := norm_ne_zero_iff.2 (pow_ne_zero _ hc)
  have hmap : (amps.map fun a => c * a).map (fun a => ‖a ^ pow‖)
      = (amps.map fun a => ‖a ^ pow‖).map fun x => ‖c ^ pow‖ * x := by
    simp [List.map_map, Function.comp_def, mul_pow]
  simp only [exactReset, hmap, List.map_map]
  congr 1
  refine List.map_congr_left fun a _ => ?_
  have hs : (amps.map ((fun x => ‖c ^ pow‖ * x) ∘ fun a => ‖a ^ pow‖)).sum
      = ‖c ^ pow‖ * (amps.map fun a => ‖a ^ pow‖).sum :=
    List.sum_map_mul_left ..
  simp only [hs, Function.comp]
  rw [mul_div_mul_left _ _ hn]

example := C49_scale (Key := Nat) [1, 0, Complex.I] 2 ⟨[0, 0, 0], 0⟩ Complex.I Complex.I_ne_zero

/-- after a reset, a uniform number selects state `k` with probability `|ψ_k|^pow / Σ_j |ψ_j|^pow`, for
    every machine and power. -/
theorem C49_probability {Key : Type} (amps : List ℂ) (pow : Nat) (st : ExactState ℝ Key)
    (h : ∃ a ∈ amps, a ≠ 0) (k : Nat) (hk : k < amps.length) :
    volume {u : ℝ | (0 ≤ u ∧ u < 1) ∧ jaxChoice (exactReset amps pow st).pdf u = k}
      = ENNReal.ofReal (‖amps[k]‖ ^ pow / (amps.map fun a => ‖a‖ ^ pow).sum) := by
  obtain ⟨h1, h2, h3, h4⟩ := C49_pdf amps pow st h
  rw [jaxChoice_volume _ h3 (by rw [h4]; exact one_pos) k (by omega), h4, div_one]
  have := h2 k hk
  rw [List.getElem?_eq_getElem (by omega)] at this
  rw [Option.some.inj this]

example := C49_probability (Key := Nat) [1, 0, Complex.I] 2 ⟨[0, 0, 0], 0⟩ ⟨1, by simp, one_ne_zero⟩ 2 (by simp)

/-- only states with non-zero amplitude are drawn. -/
theorem C49_support {Key : Type} (amps : List ℂ) (pow : Nat) (hpow : 0 < pow) (st : ExactState ℝ Key)
    (h : ∃ a ∈ amps, a ≠ 0) (u : ℝ) (h0 : 0 ≤ u) (h1 : u < 1) :
    ∃ a, amps[jaxChoice (exactReset amps pow st).pdf u]? = some a ∧ a ≠ 0 := by
  obtain ⟨p1, p2, p3, p4⟩ := C49_pdf amps pow st h
  have hT : 0 < (exactReset amps pow st).pdf.sum := by rw [p4]; exact one_pos
  rw [jaxChoice_eq]
  have hne : (exactReset amps pow st).pdf ≠ [] := by intro he; rw [he] at hT; simp at hT
  have hk := choice_lt _ p3 (1 - u) hne (by nlinarith)
  have hka : choiceIndex (exactReset amps pow st).pdf (1 - u) < amps.length := by omega
  obtain ⟨ha, hb⟩ := (choice_iff _ p3 (1 - u) _ hk).1 rfl
  have hS := take_succ_sum _ _ hk
  have hpos : 0 < (exactReset amps pow st).pdf.sum * (1 - u) := mul_pos hT (by linarith)
  have hx : 0 < (exactReset amps pow st).pdf[choiceIndex (exactReset amps pow st).pdf (1 - u)] := by
    rcases ha with hz | hz
    · have : ((exactReset amps pow st).pdf.take
          (choiceIndex (exactReset amps pow st).pdf (1 - u))).sum = 0 := by rw [hz]; simp
      linarith
    · linarith
  refine ⟨_, List.getElem?_eq_getElem hka, fun hz => ?_⟩
  have := p2 _ hka
  rw [List.getElem?_eq_getElem hk, hz] at this
  have := Option.some.inj this
  rw [this] at hx
  simp [hpow.ne'] at hx

example := C49_support (Key := Nat) [1, 0, Complex.I] 2 (by decide) ⟨[0, 0, 0], 0⟩ ⟨1, by simp, one_ne_zero⟩ (1 / 2) (by norm_num) (by norm_num)

/-- `sample` returns, for every chain step and chain, the state numbered by the corresponding draw. -/
theorem C49_sample {R Key S : Type} [Field R] [LinearOrder R] (split : Key → Key × Key)
    (uniforms : Key → Nat → List R) (huni : ∀ k n, (uniforms k n).length = n) (toState : Nat → S)
    (nChains len : Nat) (st : ExactState R Key) :
    (exactChain split uniforms toState nChains len st).1.length = len ∧
    (exactChain split uniforms toState nChains len st).2.pdf = st.pdf ∧
    ∀ (i j : Nat), i < len → j < nChains →
      ∃ u, (uniforms (split st.rng).2 (len * nChains))[i * nChains + j]? = some u ∧
      (((exactChain split uniforms toState nChains len st).1)[i]?.bind fun r => r[j]?)
        = some (toState (jaxChoice st.pdf u)) := by
  refine ⟨by simp [exactChain], rfl, ?_⟩
  intro i j hi hj
  have hlt : i * nChains + j < (uniforms (split st.rng).2 (len * nChains)).length := by
    rw [huni]
    calc i * nChains + j < i * nChains + nChains := by omega
      _ = (i + 1) * nChains := by ring
      _ ≤ len * nChains := Nat.mul_le_mul_right _ hi
  refine ⟨_, List.getElem?_eq_getElem hlt, ?_⟩
  simp only [exactChain, List.getElem?_map, List.getElem?_range hi, Option.map_some, Option.bind_some,
    List.getElem?_take, hj, if_true, List.getElem?_drop, List.getElem?_eq_getElem hlt]

example := C49_sample (R := ℚ) (fun k => (2 * k, 2 * k + 1)) (fun _ n => List.replicate n (1 / 2)) (fun _ _ => List.length_replicate) id 3 2 ⟨[1 / 2, 1 / 2], 7⟩

/-- `sample_next` without a state does not reset first: the pdf is still all zeros and it always returns
    state 0, even if the amplitude of that state is zero. -/
theorem C118_sample_next_refuted :
    ¬ ∀ (amps : List ℂ) (pow : Nat) (Key : Type) (seed : Key) (split : Key → Key × Key)
      (uniforms : Key → Nat → List ℝ), 0 < pow → (∃ a ∈ amps, a ≠ 0) →
      (∀ k n, ∀ u ∈ uniforms k n, 0 ≤ u ∧ u < 1) →
      ∀ n ∈ (Verif.Metro.sampleNextFn (exactInit amps.length seed)
        (exactNext split uniforms (fun n => n) 1) none).2, ∃ a, amps[n]? = some a ∧ a ≠ 0 := by
  intro h
  have := h [0, 1] 2 Unit () (fun k => (k, k)) (fun _ n => List.replicate n 0) (by norm_num)
    ⟨1, by simp, one_ne_zero⟩ (by
      intro k n u hu
      rw [List.eq_of_mem_replicate hu]; norm_num) 0 (by
      simp [Verif.Metro.sampleNextFn, exactNext, exactInit, jaxChoice, cumsum, List.range_succ])
  obtain ⟨a, ha, ha0⟩ := this
  simp at ha
  exact ha0 ha.symm

/-- C118 for the exact sampler: the chain is drawn from a single key, so that drawing in pieces does not
    give the same samples as drawing at once. -/
theorem C118_exact_refuted :
    ¬ ∀ (Key : Type) (split : Key → Key × Key) (uniforms : Key → Nat → List ℚ),
      (∀ k n, (uniforms k n).length = n) → (∀ k n, ∀ u ∈ uniforms k n, 0 ≤ u ∧ u < 1) →
      ∀ (nChains n m : Nat) (st : ExactState ℚ Key),
        (exactChain split uniforms (fun n => n) nChains (n + m) st).1
          = (exactChain split uniforms (fun n => n) nChains n st).1
            ++ (exactChain split uniforms (fun n => n) nChains m
                (exactChain split uniforms (fun n => n) nChains n st).2).1 := by
  intro h
  have := h Nat (fun k => (k + 1, k)) (fun k n => List.replicate n (if k = 0 then 0 else 1/2))
    (by simp) (by
      intro k n u hu
      rw [List.eq_of_mem_replicate hu]; split <;> norm_num) 1 1 1 ⟨[1/2, 1/2], 0⟩
  revert this
  decide +kernel

example : jaxChoice ([1/4, 0, 3/4] : List ℚ) (1/2) = 2 ∧ jaxChoice ([1/4, 0, 3/4] : List ℚ) (7/8) = 0 := by
  decide +kernel

/-! cases for the theorems on `NetOK` and `ARNNDense` -/

example := C51_normalised net2 (fockStates 2) fockNumber 1 net2_ok

example := C51_sample_site net2 (fockStates 2) fockNumber 1 net2_ok (fun _ => 1 / 2) 0 (by decide)

example := C51_sample_iff net2 (fockStates 2) fockNumber 1 net2_ok (fun _ => 1 / 2) (fun _ => by norm_num) [1] rfl (by decide)

example := C51_probability net2 (fockStates 2) fockNumber 1 net2_ok [1] rfl (by decide)

example := C51_arnn_dense (R := ℝ) id (fun z => (z : ℝ)) id 3 4 (fun _ _ => 1) (fun _ _ => 0) [(2, fun _ _ => 1, fun _ _ => 0)] (spinStates 2) (spinNumber 2)
  rfl ⟨2, by decide, Or.inl ⟨rfl, rfl⟩⟩

/-- successive calls of `sample_next`: the distribution stays, call number `m` draws from a half of the key whose other half is passed on, and no two
    calls draw from the same key, nor from a key that is split, if the halves of keys are all different and the first key is not itself such a half. -/
theorem C49_keys {R Key S : Type} [Field R] [LinearOrder R] (split : Key → Key × Key) (uniforms : Key → Nat → List R) (toState : Nat → S) (nChains : Nat)
    (st : ExactState R Key) (hl : ∀ a b, (split a).1 = (split b).1 → a = b) (hr : ∀ a b, (split a).2 = (split b).2 → a = b)
    (hlr : ∀ a b, (split a).1 ≠ (split b).2) (hfresh : ∀ a, (split a).1 ≠ st.rng ∧ (split a).2 ≠ st.rng) :
    ∃ used : Nat → Key, used 0 = (split st.rng).2 ∧ (∀ m n, used m = used n → m = n)
      ∧ (∀ m n, used m ≠ ((fun s => (exactNext split uniforms toState nChains s).1)^[n] st).rng)
      ∧ ∀ m, (exactNext split uniforms toState nChains ((fun s => (exactNext split uniforms toState nChains s).1)^[m] st)).2
          = (uniforms (used m) nChains).map fun u => toState (jaxChoice st.pdf u) := by
  have hst : ∀ m, (fun s => (exactNext split uniforms toState nChains s).1)^[m] st = ⟨st.pdf, (fun k => (split k).1)^[m] st.rng⟩ := by
    intro m
    induction m with
    | zero => rfl
    | succ m ih => rw [Function.iterate_succ_apply', Function.iterate_succ_apply', ih]; rfl
  have hinj : Function.Injective fun k => (split k).1 := fun a b h => hl a b h
  have hne : ∀ m n, m < n → (fun k => (split k).1)^[m] st.rng ≠ (fun k => (split k).1)^[n] st.rng := by
    intro m n hmn h
    obtain ⟨d, rfl⟩ : ∃ d, n = m + (d + 1) := ⟨n - m - 1, by omega⟩
    rw [Function.iterate_add_apply] at h
    have h' := hinj.iterate m h
    rw [Function.iterate_succ_apply'] at h'
    exact (hfresh _).1 h'.symm
  refine ⟨fun m => (split ((fun k => (split k).1)^[m] st.rng)).2, rfl, fun m n h => ?_, fun m n => ?_, fun m => ?_⟩
  · have h' := hr _ _ h
    rcases Nat.lt_trichotomy m n with hlt | heq | hgt
    · exact absurd h' (hne m n hlt)
    · exact heq
    · exact absurd h'.symm (hne n m hgt)
  · rw [hst n]
    cases n with
    | zero => exact (hfresh _).2
    | succ n => rw [Function.iterate_succ_apply']; exact (hlr _ _).symm
  · rw [hst m]
    simp [exactNext, Function.comp_def]

example := C49_keys (R := ℚ) (Key := List Bool) (S := Nat) (fun k => (false :: k, true :: k)) (fun _ n => List.replicate n (1 / 2)) id 3 ⟨[1 / 4, 3 / 4], []⟩
  (by simp) (by simp) (by simp) (by simp)

end Verif.AutoReg
