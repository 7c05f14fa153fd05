import Verif.Lemmas.Direct
import Verif.Props.AutoReg
import Verif.Props.Stats

/-! C205: estimates from the exact and the autoregressive sampler. -/

namespace Verif.Direct

open Verif.Markov Finset MeasureTheory
open Verif.Stats (avg Equal)

section general
variable {X : Type} [DecidableEq X] {S : Finset X} {p : X → ℝ}

/-- `∑ p f`. -/
noncomputable def mean (S : Finset X) (p : X → ℝ) (f : X → ℂ) : ℂ := ∑ x ∈ S, (p x : ℂ) * f x

/-- `∑ p |f - ⟨f⟩|²`. -/
noncomputable def variance (S : Finset X) (p : X → ℝ) (f : X → ℂ) : ℝ :=
  ∑ x ∈ S, p x * ‖f x - mean S p f‖ ^ 2

theorem mean_centred (h1 : ∑ x ∈ S, p x = 1) (f : X → ℂ) :
    (∑ x ∈ S, p x * (f x - mean S p f).re = 0) ∧ ∑ x ∈ S, p x * (f x - mean S p f).im = 0 := by
  have h : ∑ x ∈ S, (p x : ℂ) * (f x - mean S p f) = 0 := by
    simp only [mul_sub, Finset.sum_sub_distrib, ← Finset.sum_mul]
    rw [← Complex.ofReal_sum, h1]
    simp [mean]
  constructor
  · have := congrArg Complex.re h
    rw [Complex.re_sum] at this
    simpa using this
  · have := congrArg Complex.im h
    rw [Complex.im_sum] at this
    simpa using this

theorem sum_sub (f : X → ℂ) (m : ℂ) (l : List X) :
    (l.map fun x => f x - m).sum = (l.map f).sum - (l.length : ℂ) * m := by
  induction l with
  | nil => simp
  | cons a t ih => simp only [List.map_cons, List.sum_cons, ih, List.length_cons]; push_cast; ring

/-- deviation of the average in terms of totals. -/
theorem average_dev (f : X → ℂ) (m : ℂ) (trs : List (List X)) {N : ℝ} (hN : 0 < N)
    (hl : ((trs.flatten.length : ℕ) : ℝ) = N) :
    (average f trs - m).re = total (fun x => (f x - m).re) trs / N ∧
      (average f trs - m).im = total (fun x => (f x - m).im) trs / N := by
  have hfl : ((trs.flatten.length : ℕ) : ℂ) = (N : ℂ) := by exact_mod_cast congrArg (fun x : ℝ => (x : ℂ)) hl
  have hNc : (N : ℂ) ≠ 0 := by exact_mod_cast hN.ne'
  have hav : average f trs - m = (trs.flatten.map fun x => f x - m).sum / (N : ℂ) := by
    rw [average, hfl, sum_sub, hfl]
    field_simp
  rw [hav, Complex.div_ofReal_re, Complex.div_ofReal_im, sum_re, sum_im, List.map_map, List.map_map]
  exact ⟨rfl, rfl⟩

/-- Independent draws from `p`: the average of any function over all samples of all chains is unbiased. -/
theorem C205_unbiased (h0 : ∀ x ∈ S, 0 ≤ p x) (h1 : ∑ x ∈ S, p x = 1) (f : X → ℂ) (starts : List X)
    (hne : starts ≠ []) (hst : ∀ x ∈ starts, x ∈ S) (n : Nat) (hn : 0 < n) :
    chainsE S (fun _ y => p y) n starts (fun trs => (average f trs).re) = (mean S p f).re ∧
    chainsE S (fun _ y => p y) n starts (fun trs => (average f trs).im) = (mean S p f).im := by
  have hs := direct_stochastic h0 h1
  have hN : (0 : ℝ) < (starts.length : ℝ) * n :=
    mul_pos (by exact_mod_cast List.length_pos_iff.2 hne) (by exact_mod_cast hn)
  obtain ⟨hre, him⟩ := mean_centred h1 f
  constructor
  · have : chainsE S (fun _ y => p y) n starts (fun trs => (average f trs).re)
        = chainsE S (fun _ y => p y) n starts (fun trs => (mean S p f).re
          + (1 / ((starts.length : ℝ) * n)) * total (fun x => (f x - mean S p f).re) trs) := by
      refine chainsE_congr hs n starts hst fun trs hl ht => ?_
      have := (average_dev f (mean S p f) trs hN (by
        rw [flatten_len fun tr htr => (ht tr htr).1, hl]; push_cast; ring)).1
      rw [Complex.sub_re] at this
      rw [one_div_mul_eq_div, ← this]; ring
    rw [this, chainsE_add, chainsE_mul, chainsE_const hs n _ starts hst, direct_chains h0 h1 _ n starts hst, hre]
    ring
  · have : chainsE S (fun _ y => p y) n starts (fun trs => (average f trs).im)
        = chainsE S (fun _ y => p y) n starts (fun trs => (mean S p f).im
          + (1 / ((starts.length : ℝ) * n)) * total (fun x => (f x - mean S p f).im) trs) := by
      refine chainsE_congr hs n starts hst fun trs hl ht => ?_
      have := (average_dev f (mean S p f) trs hN (by
        rw [flatten_len fun tr htr => (ht tr htr).1, hl]; push_cast; ring)).2
      rw [Complex.sub_im] at this
      rw [one_div_mul_eq_div, ← this]; ring
    rw [this, chainsE_add, chainsE_mul, chainsE_const hs n _ starts hst, direct_chains h0 h1 _ n starts hst, him]
    ring

theorem norm_sq_parts (z : ℂ) : ‖z‖ ^ 2 = z.re ^ 2 + z.im ^ 2 := by
  rw [← Complex.normSq_eq_norm_sq, Complex.normSq_apply]; ring

/-- The mean-square error of the average of `N` samples (`c` chains with `n` samples each) is exactly the variance over `N`. -/
theorem C205_error (h0 : ∀ x ∈ S, 0 ≤ p x) (h1 : ∑ x ∈ S, p x = 1) (f : X → ℂ) (starts : List X)
    (hne : starts ≠ []) (hst : ∀ x ∈ starts, x ∈ S) (n : Nat) (hn : 0 < n) :
    chainsE S (fun _ y => p y) n starts (fun trs => ‖average f trs - mean S p f‖ ^ 2)
      = variance S p f / ((starts.length : ℝ) * n) := by
  have hs := direct_stochastic h0 h1
  have hN : (0 : ℝ) < (starts.length : ℝ) * n :=
    mul_pos (by exact_mod_cast List.length_pos_iff.2 hne) (by exact_mod_cast hn)
  obtain ⟨hre, him⟩ := mean_centred h1 f
  have : chainsE S (fun _ y => p y) n starts (fun trs => ‖average f trs - mean S p f‖ ^ 2)
      = chainsE S (fun _ y => p y) n starts (fun trs => (1 / ((starts.length : ℝ) * n) ^ 2) *
        (total (fun x => (f x - mean S p f).re) trs ^ 2 + total (fun x => (f x - mean S p f).im) trs ^ 2)) := by
    refine chainsE_congr hs n starts hst fun trs hl ht => ?_
    have h := average_dev f (mean S p f) trs hN (by
        rw [flatten_len fun tr htr => (ht tr htr).1, hl]; push_cast; ring)
    rw [norm_sq_parts, h.1, h.2]
    ring
  have hv : variance S p f = ∑ x ∈ S, p x * (f x - mean S p f).re ^ 2
      + ∑ x ∈ S, p x * (f x - mean S p f).im ^ 2 := by
    rw [variance, ← Finset.sum_add_distrib]
    exact Finset.sum_congr rfl fun x _ => by rw [norm_sq_parts, mul_add]
  rw [this, chainsE_mul, chainsE_add, direct_chains_sq h0 h1 _ hre n starts hst,
    direct_chains_sq h0 h1 _ him n starts hst, hv, ← mul_add, ← mul_add, ← mul_assoc (starts.length : ℝ) (n : ℝ)]
  generalize ((starts.length : ℝ) * n) = N at hN ⊢
  field_simp

theorem sum_sq_dev (f : X → ℂ) (m : ℂ) (trs : List (List X)) (h : trs.flatten ≠ []) :
    (trs.flatten.map fun x => Complex.normSq (f x - average f trs)).sum
      = total (fun x => Complex.normSq (f x - m)) trs - trs.flatten.length * ‖average f trs - m‖ ^ 2 := by
  have hN : ((trs.flatten.length : ℕ) : ℂ) ≠ 0 := by
    exact_mod_cast (List.length_pos_iff.2 h).ne'
  have key : ∀ (a : ℂ) (l : List X), (l.map fun x => Complex.normSq (f x - a)).sum
      = (l.map fun x => Complex.normSq (f x - m)).sum
        - 2 * ((l.map fun x => f x - m).sum * (starRingEnd ℂ) (a - m)).re + l.length * Complex.normSq (a - m) := by
    intro a l
    induction l with
    | nil => simp
    | cons x t ih =>
      simp only [List.map_cons, List.sum_cons, ih, List.length_cons]
      have : Complex.normSq (f x - a) = Complex.normSq (f x - m) + Complex.normSq (a - m)
          - 2 * ((f x - m) * (starRingEnd ℂ) (a - m)).re := by
        rw [← Complex.normSq_sub]; congr 1; ring
      rw [this, add_mul, Complex.add_re]
      push_cast
      ring
  rw [key (average f trs), sum_sub]
  have h2 : (trs.flatten.map f).sum = trs.flatten.length * average f trs := by
    rw [average]; field_simp
  rw [h2, ← mul_sub, mul_assoc, Complex.mul_conj, ← Complex.normSq_eq_norm_sq, total]
  rw [← Complex.ofReal_natCast, ← Complex.ofReal_mul, Complex.ofReal_re]
  ring

/-- The variance computed by `nk.stats.var` with `ddof`, for every division of the `N` samples into equal
    shards over the ranks and on every rank, has expected value `(N-1)/(N-ddof)` times the variance: `ddof = 1` is unbiased,
    the variance in `Stats` (`ddof = 0`) is by the factor `1 - 1/N` too small. -/
theorem C205_variance (h0 : ∀ x ∈ S, 0 ≤ p x) (h1 : ∑ x ∈ S, p x = 1) (f : X → ℂ) (starts : List X)
    (hne : starts ≠ []) (hst : ∀ x ∈ starts, x ∈ S) (n : Nat) (hn : 0 < n) (ddof : Nat)
    (hd : ddof < starts.length * n) (divide : List (List X) → List (List X))
    (rank : Nat) (hdiv : ∀ trs, trs.flatten.length = starts.length * n →
      (divide trs).flatten = trs.flatten ∧ (∃ L, Equal L (divide trs)) ∧ rank < (divide trs).length) :
    chainsE S (fun _ y => p y) n starts
        (fun trs => Verif.Stats.var Complex.normSq ((divide trs).map fun a => a.map f) rank ddof)
      = variance S p f * (((starts.length : ℝ) * n - 1) / ((starts.length : ℝ) * n - ddof)) := by
  have hs := direct_stochastic h0 h1
  have hN : (0 : ℝ) < (starts.length : ℝ) * n :=
    mul_pos (by exact_mod_cast List.length_pos_iff.2 hne) (by exact_mod_cast hn)
  have hdd : ((starts.length : ℝ) * n - ddof) ≠ 0 := by
    have : (ddof : ℝ) < (starts.length : ℝ) * n := by exact_mod_cast hd
    linarith
  have : chainsE S (fun _ y => p y) n starts
        (fun trs => Verif.Stats.var Complex.normSq ((divide trs).map fun a => a.map f) rank ddof)
      = chainsE S (fun _ y => p y) n starts (fun trs =>
        (1 / ((starts.length : ℝ) * n - ddof)) * (total (fun x => Complex.normSq (f x - mean S p f)) trs
          + (-((starts.length : ℝ) * n)) * ‖average f trs - mean S p f‖ ^ 2)) := by
    refine chainsE_congr hs n starts hst fun trs hl ht => ?_
    have hlen : trs.flatten.length = starts.length * n := by
      rw [flatten_len fun tr htr => (ht tr htr).1, hl]
    have hpos : trs.flatten ≠ [] := List.ne_nil_of_length_pos (by
      rw [hlen]; exact Nat.mul_pos (List.length_pos_iff.2 hne) hn)
    obtain ⟨hd1, ⟨L, hd2⟩, hrank⟩ := hdiv trs hlen
    have hL' : Equal L ((divide trs).map fun a => a.map f) := by
      intro a ha
      rcases List.mem_map.1 ha with ⟨b, hb, rfl⟩
      rw [List.length_map, hd2 b hb]
    rw [Verif.Stats.C54_var _ L _ hL' rank (by rw [List.length_map]; exact hrank) ddof,
      Verif.Stats.map_flatten' f, hd1, List.map_map, List.length_map, hlen]
    have ea : avg (trs.flatten.map f) = average f trs := by
      rw [avg, average, List.length_map]
    rw [ea, show ((fun x => Complex.normSq (x - average f trs)) ∘ f)
      = fun x => Complex.normSq (f x - average f trs) from rfl, sum_sq_dev f (mean S p f) trs hpos, hlen]
    push_cast
    ring
  rw [this, chainsE_mul, chainsE_add, chainsE_mul, C205_error h0 h1 f starts hne hst n hn,
    direct_chains h0 h1 _ n starts hst]
  have hv : ∑ y ∈ S, p y * Complex.normSq (f y - mean S p f) = variance S p f := by
    rw [variance]
    exact Finset.sum_congr rfl fun y _ => by rw [Complex.normSq_eq_norm_sq]
  rw [hv, ← mul_assoc]
  generalize ((starts.length : ℝ) * n) = N at hN hdd ⊢
  field_simp
  ring

-- C205_unbiased, C205_error, C205_variance: a loaded coin, two chains
example : (∀ x ∈ range 2, (0 : ℝ) ≤ if x = 0 then 3 / 4 else 1 / 4) ∧
    ∑ x ∈ range 2, (if x = 0 then 3 / 4 else 1 / 4 : ℝ) = 1 := by
  refine ⟨fun x _ => by split <;> norm_num, ?_⟩
  simp [Finset.sum_range_succ]; norm_num

/-- variance of that coin. -/
example : variance (range 2) (fun x => if x = 0 then 3 / 4 else 1 / 4) (fun x => (x : ℂ)) = 3 / 16 := by
  have : mean (range 2) (fun x => if x = 0 then 3 / 4 else 1 / 4) (fun x => (x : ℂ)) = 1 / 4 := by
    simp [mean, Finset.sum_range_succ]
  rw [variance, this]
  simp [Finset.sum_range_succ, ← Complex.normSq_eq_norm_sq, Complex.normSq_apply]
  norm_num

-- C205_variance: every rank holds one sample
example (trs : List (List Nat)) (h : trs.flatten.length = 2 * 3) :
    (trs.flatten.map fun x => [x]).flatten = trs.flatten ∧
      (∃ L, Equal L (trs.flatten.map fun x => [x])) ∧ 5 < (trs.flatten.map fun x => [x]).length := by
  refine ⟨?_, ⟨1, ?_⟩, by rw [List.length_map, h]; norm_num⟩
  · generalize trs.flatten = l
    induction l with
    | nil => rfl
    | cons a t ih => simp only [List.map_cons, List.flatten_cons, ih]; rfl
  · intro a ha
    obtain ⟨x, _, rfl⟩ := List.mem_map.1 ha
    rfl

end general

/-! ### the exact sampler -/

/-- probability that one draw of the exact sampler, after a reset, is the state number `k`. -/
noncomputable def exactProb {Key : Type} (amps : List ℂ) (pow : Nat) (st : Verif.AutoReg.ExactState ℝ Key) (k : Nat) : ℝ :=
  (volume {u : ℝ | (0 ≤ u ∧ u < 1) ∧ Verif.AutoReg.jaxChoice (Verif.AutoReg.exactReset amps pow st).pdf u = k}).toReal

theorem exactProb_eq {Key : Type} (amps : List ℂ) (pow : Nat) (st : Verif.AutoReg.ExactState ℝ Key)
    (h : ∃ a ∈ amps, a ≠ 0) (k : Nat) (hk : k < amps.length) :
    exactProb amps pow st k = ‖amps.getD k 0‖ ^ pow / (amps.map fun a => ‖a‖ ^ pow).sum := by
  have h0 : 0 ≤ (amps.map fun a => ‖a‖ ^ pow).sum :=
    List.sum_nonneg fun x hx => by
      obtain ⟨a, _, rfl⟩ := List.mem_map.1 hx
      positivity
  rw [exactProb, Verif.AutoReg.C49_probability amps pow st h k hk, ENNReal.toReal_ofReal (by positivity),
    List.getD_eq_getElem?_getD, List.getElem?_eq_getElem hk, Option.getD_some]

theorem list_sum_range (l : List ℝ) : l.sum = ∑ k ∈ range l.length, l.getD k 0 := by
  induction l with
  | nil => simp
  | cons a t ih =>
    rw [List.sum_cons, List.length_cons, Finset.sum_range_succ', ih]
    simp [add_comm]

theorem weight_sum (amps : List ℂ) (pow : Nat) (h : ∃ a ∈ amps, a ≠ 0) :
    (amps.map fun a => ‖a‖ ^ pow).sum = ∑ k ∈ range amps.length, ‖amps.getD k 0‖ ^ pow ∧
      0 < (amps.map fun a => ‖a‖ ^ pow).sum := by
  have e : (amps.map fun a => ‖a‖ ^ pow).sum = ∑ k ∈ range amps.length, ‖amps.getD k 0‖ ^ pow := by
    rw [list_sum_range, List.length_map]
    refine Finset.sum_congr rfl fun k hk => ?_
    have hk' := Finset.mem_range.1 hk
    simp [List.getD_eq_getElem?_getD, List.getElem?_eq_getElem hk']
  refine ⟨e, ?_⟩
  rw [e]
  obtain ⟨a, ha, h0⟩ := h
  obtain ⟨i, hi, rfl⟩ := List.mem_iff_getElem.1 ha
  refine Finset.sum_pos' (fun k _ => by positivity) ⟨i, Finset.mem_range.2 hi, ?_⟩
  rw [List.getD_eq_getElem?_getD, List.getElem?_eq_getElem hi, Option.getD_some]
  exact pow_pos (norm_pos_iff.2 h0) _

/-- the draws of the exact sampler have probabilities, that of `k` being `|ψ_k|^pow / ∑ |ψ|^pow`. -/
theorem exact_law {Key : Type} (amps : List ℂ) (pow : Nat) (st : Verif.AutoReg.ExactState ℝ Key)
    (h : ∃ a ∈ amps, a ≠ 0) :
    (∀ k ∈ range amps.length, 0 ≤ exactProb amps pow st k) ∧
      ∑ k ∈ range amps.length, exactProb amps pow st k = 1 := by
  refine ⟨fun k _ => ENNReal.toReal_nonneg, ?_⟩
  obtain ⟨e, hp⟩ := weight_sum amps pow h
  rw [Finset.sum_congr rfl fun k hk => exactProb_eq amps pow st h k (Finset.mem_range.1 hk),
    ← Finset.sum_div, ← e, div_self hp.ne']

/-- The exact sampler: with `|ψ|^pow` as weights the average of any function `f` of the states over the
    samples of all chains has the weighted mean as expected value, and its mean-square error is the weighted
    variance over the number of samples. -/
theorem C205_exact {Key : Type} (amps : List ℂ) (pow : Nat) (st : Verif.AutoReg.ExactState ℝ Key)
    (h : ∃ a ∈ amps, a ≠ 0) (f : Nat → ℂ) (starts : List Nat) (hne : starts ≠ [])
    (hst : ∀ x ∈ starts, x < amps.length) (n : Nat) (hn : 0 < n) :
    let π : Nat → ℝ := fun k => ‖amps.getD k 0‖ ^ pow
    let S := range amps.length
    let K : Nat → Nat → ℝ := fun _ k => exactProb amps pow st k
    chainsE S K n starts (fun trs => (average f trs).re) = (meanOf S π f).re ∧
    chainsE S K n starts (fun trs => (average f trs).im) = (meanOf S π f).im ∧
    chainsE S K n starts (fun trs => ‖average f trs - meanOf S π f‖ ^ 2)
      = (∑ k ∈ S, π k * ‖f k - meanOf S π f‖ ^ 2) / (∑ k ∈ S, π k) / ((starts.length : ℝ) * n) := by
  intro π S K
  obtain ⟨h0, h1⟩ := exact_law amps pow st h
  obtain ⟨e, hp⟩ := weight_sum amps pow h
  have hm : mean S (exactProb amps pow st) f = meanOf S π f := by
    rw [mean, meanOf, Finset.sum_div]
    refine Finset.sum_congr rfl fun k hk => ?_
    rw [exactProb_eq amps pow st h k (Finset.mem_range.1 hk), e]
    show ((π k / ∑ i ∈ S, π i : ℝ) : ℂ) * f k = _
    rw [Complex.ofReal_div]
    ring
  have hv : variance S (exactProb amps pow st) f
      = (∑ k ∈ S, π k * ‖f k - meanOf S π f‖ ^ 2) / ∑ k ∈ S, π k := by
    rw [variance, hm, Finset.sum_div]
    refine Finset.sum_congr rfl fun k hk => ?_
    rw [exactProb_eq amps pow st h k (Finset.mem_range.1 hk), e]
    ring
  have hst' : ∀ x ∈ starts, x ∈ range amps.length := fun x hx => Finset.mem_range.2 (hst x hx)
  obtain ⟨u1, u2⟩ := C205_unbiased h0 h1 f starts hne hst' n hn
  have u3 := C205_error h0 h1 f starts hne hst' n hn
  rw [hm] at u1 u2 u3
  rw [hv] at u3
  exact ⟨u1, u2, u3⟩

-- C205_exact: a state with four amplitudes
example : ∃ a ∈ [(0 : ℂ), Complex.I, 2, -1], a ≠ 0 := ⟨2, by simp, by norm_num⟩

/-! ### the autoregressive sampler -/

open Verif.AutoReg (NetOK arSample extend logPsi)

/-- probability that one draw of the autoregressive sampler is `τ`. -/
noncomputable def arProb (net : Nat → List Int → List ℝ) (ls : List Int) (N : Nat) (τ : List Int) : ℝ :=
  (volume {us : Fin N → ℝ | (∀ i, 0 ≤ us i ∧ us i < 1) ∧ arSample net ls N (extend N us) = τ}).toReal

/-- all configurations of `N` sites. -/
def configurations (ls : List Int) (N : Nat) : Finset (List Int) :=
  Finset.univ.image fun c : Fin N → Fin ls.length => List.ofFn fun i => ls.get (c i)

theorem mem_configurations (ls : List Int) (N : Nat) (τ : List Int) :
    τ ∈ configurations ls N ↔ τ.length = N ∧ ∀ x ∈ τ, x ∈ ls := by
  rw [configurations, Finset.mem_image]
  constructor
  · rintro ⟨c, _, rfl⟩
    refine ⟨by simp, fun x hx => ?_⟩
    obtain ⟨i, rfl⟩ := (List.mem_ofFn' _ _).1 hx
    exact List.get_mem _ _
  · rintro ⟨rfl, h⟩
    have hc : ∀ i : Fin τ.length, ∃ j : Fin ls.length, ls.get j = τ.get i := fun i =>
      List.mem_iff_get.1 (h _ (List.get_mem τ i))
    choose c hc using hc
    refine ⟨c, Finset.mem_univ _, ?_⟩
    simp only [hc]
    exact List.ofFn_get τ

theorem ar_law (net : Nat → List Int → List ℝ) (ls : List Int) (number : Int → Nat) (N : Nat)
    (h : NetOK net ls number N) :
    (∀ τ ∈ configurations ls N, arProb net ls N τ = Real.exp (2 * logPsi net number τ)) ∧
      ∑ τ ∈ configurations ls N, Real.exp (2 * logPsi net number τ) = 1 := by
  constructor
  · intro τ hτ
    obtain ⟨a, b⟩ := (mem_configurations ls N τ).1 hτ
    rw [arProb, Verif.AutoReg.C51_probability net ls number N h τ a b, ENNReal.toReal_ofReal (Real.exp_pos _).le]
  · rw [configurations, Finset.sum_image, Verif.AutoReg.C51_normalised net ls number N h]
    intro c _ c' _ hcc
    have := List.ofFn_injective hcc
    funext i
    have hi := congrArg number (congrFun this i)
    apply Fin.ext
    have e1 := h.num (c i) (c i).2
    have e2 := h.num (c' i) (c' i).2
    simp only [List.get_eq_getElem] at hi
    rw [e1, e2] at hi
    exact hi

/-- The autoregressive sampler: with `|ψ|²` as weights the average of any function `f` of the configurations
    over the samples of all chains has the weighted mean `∑ |ψ|² f` as expected value, and its mean-square error is
    `∑ |ψ|² |f - mean|²` over the number of samples. -/
theorem C205_autoregressive (net : Nat → List Int → List ℝ) (ls : List Int) (number : Int → Nat) (N : Nat)
    (h : NetOK net ls number N) (f : List Int → ℂ) (starts : List (List Int)) (hne : starts ≠ [])
    (hst : ∀ τ ∈ starts, τ.length = N ∧ ∀ x ∈ τ, x ∈ ls) (n : Nat) (hn : 0 < n) :
    let π : List Int → ℝ := fun τ => Real.exp (logPsi net number τ) ^ 2
    let S := configurations ls N
    let K : List Int → List Int → ℝ := fun _ τ => arProb net ls N τ
    chainsE S K n starts (fun trs => (average f trs).re) = (meanOf S π f).re ∧
    chainsE S K n starts (fun trs => (average f trs).im) = (meanOf S π f).im ∧
    chainsE S K n starts (fun trs => ‖average f trs - meanOf S π f‖ ^ 2)
      = (∑ τ ∈ S, π τ * ‖f τ - meanOf S π f‖ ^ 2) / ((starts.length : ℝ) * n) := by
  intro π S K
  obtain ⟨hp, hsum⟩ := ar_law net ls number N h
  have hπ : ∀ τ, Real.exp (2 * logPsi net number τ) = π τ := fun τ => by
    show _ = Real.exp (logPsi net number τ) ^ 2
    rw [← Real.exp_nat_mul]; norm_num
  have hp' : ∀ τ ∈ S, arProb net ls N τ = π τ := fun τ hτ => (hp τ hτ).trans (hπ τ)
  have hs' : ∑ τ ∈ S, π τ = 1 := by rw [← hsum]; exact Finset.sum_congr rfl fun τ _ => (hπ τ).symm
  have h0 : ∀ τ ∈ S, 0 ≤ arProb net ls N τ := fun τ _ => ENNReal.toReal_nonneg
  have h1 : ∑ τ ∈ S, arProb net ls N τ = 1 := by rw [Finset.sum_congr rfl hp', hs']
  have hm : mean S (arProb net ls N) f = meanOf S π f := by
    rw [mean, meanOf, hs', Complex.ofReal_one, div_one]
    exact Finset.sum_congr rfl fun k hk => by rw [hp' k hk]
  have hv : variance S (arProb net ls N) f = ∑ τ ∈ S, π τ * ‖f τ - meanOf S π f‖ ^ 2 := by
    rw [variance, hm]
    exact Finset.sum_congr rfl fun k hk => by rw [hp' k hk]
  have hst' : ∀ x ∈ starts, x ∈ S := fun x hx => (mem_configurations ls N x).2 (hst x hx)
  obtain ⟨u1, u2⟩ := C205_unbiased h0 h1 f starts hne hst' n hn
  have u3 := C205_error h0 h1 f starts hne hst' n hn
  rw [hm] at u1 u2 u3
  rw [hv] at u3
  exact ⟨u1, u2, u3⟩

-- C205_autoregressive: a site with two local states of probabilities 1/5 and 4/5
example : NetOK Verif.AutoReg.net2 (Verif.AutoReg.fockStates 2) Verif.AutoReg.fockNumber 1 ∧
    ([1] ∈ configurations (Verif.AutoReg.fockStates 2) 1) :=
  ⟨Verif.AutoReg.net2_ok, (mem_configurations _ _ _).2 ⟨rfl, by decide⟩⟩

end Verif.Direct
