import Verif.Props.Stats
import Mathlib.Analysis.SpecialFunctions.Pow.NNReal
import Mathlib.Algebra.BigOperators.Pi
import Mathlib.Algebra.BigOperators.Ring.Finset

/-! C248 (what error bars, correlation times and R̂ mean: scaling, order of the chains, bounds, expected error),
C249 (R̂ and the Gelman-Rubin ratio). -/

namespace Verif.Stats

open Complex (normSq)

/-! ## The statistics in terms of averages -/

section
variable {K R : Type} [Field K] [Field R] [LinearOrder R]

/-- the statistics of chains, written with averages and variances. -/
def plain (abs2 : K → R) (sqrt : R → R) (rows : List (List K)) (C b : Nat) : Result K R :=
  let V := variance abs2 rows.flatten
  let M := rows.length
  let B := variance abs2 (rows.map avg)
  let l := max 1 (C / b)
  let D := variance abs2 (blockMeans rows C l)
  let nD := (blockMeans rows C l).length
  let tB := tauOf rows.flatten.length M B V
  let tD := tauOf rows.flatten.length nD D V
  let et : Option R × Option R :=
    if ltF tB (6 * (C : R)) && decide (b ≤ M) then (some (sqrt (B / (M : R))), tB.map fun t => max t 0)
    else if ltF tD (6 * (l : R)) && decide (b ≤ nD) then (some (sqrt (D / (nD : R))), tD.map fun t => max t 0)
    else (none, none)
  { mean := avg rows.flatten, error := et.1, variance := V, tau := et.2,
    rHat := if 1 < M then (fdiv B V).map fun q => sqrt (((C : R) - 1) / (C : R) + q) else none }

theorem statistics_plain [IsStrictOrderedRing R] (abs2 : K → R) (sqrt : R → R) (shards : List (List (List K))) (m C b : Nat) (hm : Equal m shards)
    (hC : ∀ rows ∈ shards, Equal C rows) (r : Nat) (hr : r < shards.length) :
    statistics abs2 sqrt shards C b r = plain abs2 sqrt shards.flatten C b := by
  have hmap : shards.flatten.map localMean = shards.flatten.map (avg : List K → K) := rfl
  rw [C54_statistics abs2 sqrt shards m C b hm hC r hr]
  unfold statistics plain
  have hmean : mean [shards.flatten.flatten] = avg shards.flatten.flatten := by
    rw [C54_mean _ _ (equal_one _)]
    simp
  simp only [List.map_cons, List.map_nil, List.length_cons, List.length_nil, Nat.zero_add, var_single, getBlocks_eq, totalSize,
    List.getD_cons_zero, Nat.mul_one, hmap, List.length_map, hmean]

end

/-! ## Order of the chains -/

section
variable {K R : Type} [Field K] [Field R] [LinearOrder R] [IsStrictOrderedRing R]

theorem avg_perm {l l' : List K} (h : l.Perm l') : avg l = avg l' := by
  rw [avg, avg, h.sum_eq, h.length_eq]

theorem variance_perm (abs2 : K → R) {l l' : List K} (h : l.Perm l') : variance abs2 l = variance abs2 l' := by
  rw [variance, variance, avg_perm h, h.length_eq, dev, dev, (h.map _).sum_eq]

/-- the statistics depend on the set of chains only: not on their order, nor on which process has which. -/
theorem C248_order (abs2 : K → R) (sqrt : R → R) (shards shards' : List (List (List K))) (m m' C b : Nat) (hm : Equal m shards)
    (hm' : Equal m' shards') (hC : ∀ rows ∈ shards, Equal C rows) (hp : shards.flatten.Perm shards'.flatten) (r r' : Nat)
    (hr : r < shards.length) (hr' : r' < shards'.length) :
    statistics abs2 sqrt shards C b r = statistics abs2 sqrt shards' C b r' := by
  have hC' : ∀ rows ∈ shards', Equal C rows := by
    intro rows hrows a ha
    obtain ⟨rows', h1, h2⟩ := List.mem_flatten.1 (hp.symm.subset (List.mem_flatten.2 ⟨rows, hrows, ha⟩))
    exact hC rows' h1 a h2
  rw [statistics_plain abs2 sqrt shards m C b hm hC r hr, statistics_plain abs2 sqrt shards' m' C b hm' hC' r' hr']
  unfold plain
  have hf : shards.flatten.flatten.Perm shards'.flatten.flatten := hp.flatten
  have hb : ∀ l, (blockMeans shards.flatten C l).Perm (blockMeans shards'.flatten C l) := fun l => hp.flatMap_right _
  simp only [variance_perm abs2 hf, variance_perm abs2 (hp.map avg), variance_perm abs2 (hb _), avg_perm hf, hf.length_eq, hp.length_eq,
    (hb _).length_eq]

end

/-! ## Scaling -/

theorem avg_affine (a b : ℂ) (l : List ℂ) (hl : l ≠ []) : avg (l.map fun x => a * x + b) = a * avg l + b := by
  have h0 : (l.length : ℂ) ≠ 0 := by simpa using hl
  have hs : (l.map fun x => a * x + b).sum = a * l.sum + l.length * b := by
    clear h0 hl
    induction l with
    | nil => simp
    | cons x t ih =>
      simp only [List.map_cons, List.sum_cons, ih, List.length_cons]
      push_cast
      ring
  rw [avg, avg, hs, List.length_map]
  field_simp

theorem variance_affine (a b : ℂ) (l : List ℂ) : variance normSq (l.map fun x => a * x + b) = normSq a * variance normSq l := by
  rcases eq_or_ne l [] with rfl | hl
  · simp [variance, dev]
  · have : dev normSq (l.map fun x => a * x + b) (a * avg l + b) = normSq a * dev normSq l (avg l) := by
      rw [dev, dev, List.map_map, ← List.sum_map_mul_left]
      congr 1
      refine List.map_congr_left fun x _ => ?_
      simp only [Function.comp]
      rw [← Complex.normSq_mul]
      congr 1
      ring
    rw [variance, variance, avg_affine a b l hl, this, List.length_map, mul_div_assoc]

theorem blockMeans_affine (a b : ℂ) (rows : List (List ℂ)) (C l : Nat) (hC : Equal C rows) (hl : 0 < l) :
    blockMeans (rows.map fun row => row.map fun x => a * x + b) C l = (blockMeans rows C l).map fun x => a * x + b := by
  rw [blockMeans, blockMeans, List.flatMap_map, List.map_flatMap]
  refine List.flatMap_congr ?_
  intro row hrow
  rw [List.map_map]
  refine List.map_congr_left fun i hi => ?_
  rw [List.mem_range] at hi
  simp only [Function.comp]
  rw [← List.map_drop, ← List.map_take, avg_affine]
  intro h0
  have hlen := congrArg List.length h0
  rw [List.length_take, List.length_drop, hC row hrow, List.length_nil] at hlen
  have h1 : (i + 1) * l ≤ C := le_trans (Nat.mul_le_mul_right l hi) (Nat.div_mul_le_self C l)
  rw [Nat.succ_mul] at h1
  omega

/-- data `a x + b` with `a ≠ 0`: the mean is transformed like the data, error and variance are scaled with `|a|` and `|a|²`, correlation time and R̂ are
    the same. -/
theorem C248_scaling (a b : ℂ) (ha : a ≠ 0) (shards : List (List (List ℂ))) (m C bs : Nat) (hm : Equal m shards) (hm0 : 0 < m) (hC0 : 0 < C)
    (hC : ∀ rows ∈ shards, Equal C rows) (r : Nat) (hr : r < shards.length) :
    let s := statistics normSq Real.sqrt shards C bs r
    statistics normSq Real.sqrt (shards.map fun rows => rows.map fun row => row.map fun x => a * x + b) C bs r
      = { mean := a * s.mean + b, error := s.error.map fun e => ‖a‖ * e, variance := ‖a‖ ^ 2 * s.variance, tau := s.tau, rHat := s.rHat } := by
  have hs : 0 < normSq a := Complex.normSq_pos.2 ha
  have hall : Equal C shards.flatten := by
    intro x hx
    obtain ⟨rows, h1, h2⟩ := List.mem_flatten.1 hx
    exact hC rows h1 x h2
  have hm' : Equal m (shards.map fun rows => rows.map fun row => row.map fun x => a * x + b) := equal_map _ (fun x hx _ => by simpa using hx) hm
  have hC' : ∀ rows ∈ (shards.map fun rows => rows.map fun row => row.map fun x => a * x + b), Equal C rows := by
    intro rows hrows
    obtain ⟨rows', h1, rfl⟩ := List.mem_map.1 hrows
    exact equal_map _ (fun x hx _ => by simpa using hx) (hC rows' h1)
  have hfl : (shards.map fun rows => rows.map fun row => row.map fun x => a * x + b).flatten = shards.flatten.map fun row => row.map fun x => a * x + b :=
    map_flatten' _ _
  have hff : (shards.flatten.map fun row => row.map fun x => a * x + b).flatten = shards.flatten.flatten.map fun x => a * x + b := map_flatten' _ _
  have hne : shards.flatten.flatten ≠ [] := by
    intro h0
    have := congrArg List.length h0
    rw [flatten_length hall, flatten_length hm, List.length_nil] at this
    have h3 : 0 < shards.length * m * C := Nat.mul_pos (Nat.mul_pos (by omega) hm0) hC0
    omega
  dsimp only
  rw [statistics_plain normSq Real.sqrt shards m C bs hm hC r hr, statistics_plain normSq Real.sqrt _ m C bs hm' hC' r (by simpa using hr), hfl]
  generalize hrows : shards.flatten = rows at *
  have havg : (rows.map fun row => row.map fun x => a * x + b).map avg = (rows.map avg).map fun x => a * x + b := by
    rw [List.map_map, List.map_map]
    refine List.map_congr_left fun row hrow => ?_
    simp only [Function.comp]
    refine avg_affine a b row ?_
    intro h0
    have := hall row hrow
    rw [h0, List.length_nil] at this
    omega
  have htau : ∀ ts n v V, tauOf ts n (normSq a * v) (normSq a * V) = tauOf ts n v V := by
    intro ts n v V
    unfold tauOf fdiv
    by_cases hV : V = 0
    · simp [hV]
    · rw [if_neg (mul_ne_zero hs.ne' hV), if_neg hV]
      congr 2
      field_simp
  have hdiv : ∀ v V, fdiv (normSq a * v) (normSq a * V) = fdiv v V := by
    intro v V
    unfold fdiv
    by_cases hV : V = 0
    · simp [hV]
    · rw [if_neg (mul_ne_zero hs.ne' hV), if_neg hV]
      congr 1
      field_simp
  have hsq : ∀ v : ℝ, ∀ n : Nat, Real.sqrt (normSq a * v / n) = ‖a‖ * Real.sqrt (v / n) := by
    intro v n
    rw [mul_div_assoc, Real.sqrt_mul hs.le, Complex.normSq_eq_norm_sq, Real.sqrt_sq (norm_nonneg a)]
  unfold plain
  dsimp only
  rw [blockMeans_affine a b rows C _ hall (by omega), hff, havg, avg_affine a b _ hne]
  simp only [variance_affine, List.length_map, htau, hdiv, hsq, ← Complex.normSq_eq_norm_sq]
  congr 1
  · split
    · rfl
    · split <;> rfl
  · split
    · rfl
    · split <;> rfl

/-! ## Bounds -/

/-- mean squared deviation within the chains. -/
noncomputable def within (rows : List (List ℂ)) (C : Nat) : ℝ :=
  (rows.map fun row => dev normSq row (avg row)).sum / ((rows.length * C : Nat) : ℝ)

theorem avg_chains (rows : List (List ℂ)) (C : Nat) (hC : Equal C rows) (hC0 : 0 < C) : avg rows.flatten = avg (rows.map avg) := by
  have hc : (C : ℂ) ≠ 0 := by exact_mod_cast hC0.ne'
  have : (rows.map avg).sum = rows.flatten.sum / C := by
    rw [← sum_flatten', ← map_div_sum, List.map_map]
    congr 1
    refine List.map_congr_left fun row hrow => ?_
    rw [Function.comp, avg, hC row hrow]
  rw [avg, avg, this, flatten_length hC, List.length_map, Nat.cast_mul, div_div]
  ring_nf

theorem dev_centre (l : List ℂ) (hl : l ≠ []) (c : ℂ) : dev normSq l c = dev normSq l (avg l) + l.length * normSq (avg l - c) := by
  have h1 : l.map Complex.re ≠ [] := by simpa using hl
  have h2 : l.map Complex.im ≠ [] := by simpa using hl
  rw [dev, dev, sum_normSq, sum_normSq, sum_sq_centre _ h1 c.re, sum_sq_centre _ h2 c.im, avg_re, avg_im, Complex.normSq_apply, Complex.sub_re,
    Complex.sub_im, avg_re, avg_im, List.length_map, List.length_map]
  ring

theorem dev_chains (C : Nat) (hC0 : 0 < C) (c : ℂ) : ∀ rows : List (List ℂ), Equal C rows →
    dev normSq rows.flatten c = (rows.map fun row => dev normSq row (avg row)).sum + C * dev normSq (rows.map avg) c
  | [], _ => by simp [dev]
  | row :: t, h => by
    have ih := dev_chains C hC0 c t fun a ha => h a (List.mem_cons_of_mem _ ha)
    have hlen := h row (by simp)
    have hne : row ≠ [] := by
      rintro rfl
      simp at hlen
      omega
    have h1 : dev normSq ((row :: t).map avg) c = normSq (avg row - c) + dev normSq (t.map avg) c := by simp [dev]
    rw [List.flatten_cons, dev_append, ih, dev_centre row hne c, hlen, h1, List.map_cons, List.sum_cons]
    ring

/-- the variance is the variance within the chains and the variance of their means. -/
theorem total_variance (rows : List (List ℂ)) (C : Nat) (hC : Equal C rows) (hC0 : 0 < C) (hM : rows ≠ []) :
    variance normSq rows.flatten = within rows C + variance normSq (rows.map avg) := by
  have hM0 : (rows.length : ℝ) ≠ 0 := by simpa using hM
  have hc : (C : ℝ) ≠ 0 := by exact_mod_cast hC0.ne'
  rw [variance, variance, within, avg_chains rows C hC hC0, dev_chains C hC0 _ rows hC, flatten_length hC, List.length_map]
  push_cast
  field_simp

theorem variance_nonneg' (l : List ℂ) : 0 ≤ variance normSq l := div_nonneg (dev_nonneg isAbs2_normSq l _) (Nat.cast_nonneg _)

theorem within_nonneg (rows : List (List ℂ)) (C : Nat) : 0 ≤ within rows C :=
  div_nonneg (List.sum_nonneg (by
    intro x hx
    obtain ⟨row, _, rfl⟩ := List.mem_map.1 hx
    exact dev_nonneg isAbs2_normSq _ _)) (Nat.cast_nonneg _)

/-- R̂ lies between `√(1 - 1/C)` and `√(2 - 1/C)`, so it is below `√2`, for every data; with enough chains the correlation time is at most
    `(C - 1) / 2` and the squared error at most the variance over the number of chains. -/
theorem C248_bounds (shards : List (List (List ℂ))) (m C bs : Nat) (hm : Equal m shards) (hC0 : 0 < C) (hC : ∀ rows ∈ shards, Equal C rows)
    (r : Nat) (hr : r < shards.length) :
    let s := statistics normSq Real.sqrt shards C bs r
    (∀ q, s.rHat = some q → Real.sqrt (1 - 1 / C) ≤ q ∧ q ≤ Real.sqrt (2 - 1 / C) ∧ q < Real.sqrt 2) ∧
      (bs ≤ shards.length * m → (∀ t, s.tau = some t → 0 ≤ t ∧ t ≤ ((C : ℝ) - 1) / 2) ∧
        ∀ e, s.error = some e → 0 ≤ e ∧ e ^ 2 ≤ s.variance / ((shards.length * m : Nat) : ℝ)) := by
  have hall : Equal C shards.flatten := by
    intro x hx
    obtain ⟨rows, h1, h2⟩ := List.mem_flatten.1 hx
    exact hC rows h1 x h2
  dsimp only
  rw [statistics_plain normSq Real.sqrt shards m C bs hm hC r hr, ← flatten_length hm]
  generalize shards.flatten = rows at *
  have hc : (0 : ℝ) < C := by exact_mod_cast hC0
  have hc1 : (1 : ℝ) ≤ C := by exact_mod_cast hC0
  have hB := variance_nonneg' (rows.map avg)
  have hfrac : ((C : ℝ) - 1) / C = 1 - 1 / C := by field_simp
  have hBV : rows ≠ [] → variance normSq (rows.map avg) ≤ variance normSq rows.flatten := by
    intro h0
    rw [total_variance rows C hall hC0 h0]
    linarith [within_nonneg rows C]
  refine ⟨?_, ?_⟩
  · intro q hq
    unfold plain at hq
    dsimp only at hq
    split at hq
    · rename_i hM
      have hne : rows ≠ [] := by
        rintro rfl
        simp at hM
      unfold fdiv at hq
      split at hq
      · simp at hq
      · rename_i hV
        rw [Option.map_some, Option.some.injEq] at hq
        have hVp : 0 < variance normSq rows.flatten := lt_of_le_of_ne (variance_nonneg' _) (Ne.symm hV)
        have h1 : variance normSq (rows.map avg) / variance normSq rows.flatten ≤ 1 := (div_le_one hVp).2 (hBV hne)
        have h0 : 0 ≤ variance normSq (rows.map avg) / variance normSq rows.flatten := div_nonneg hB hVp.le
        have h3 : (0 : ℝ) < 1 / C := by positivity
        rw [hfrac] at hq
        rw [← hq]
        exact ⟨Real.sqrt_le_sqrt (by linarith), Real.sqrt_le_sqrt (by linarith), Real.sqrt_lt_sqrt (by
          have : 1 / (C : ℝ) ≤ 1 := (div_le_one hc).2 hc1
          linarith) (by linarith)⟩
    · simp at hq
  · intro hbs
    unfold plain
    dsimp only
    rcases eq_or_ne (variance normSq rows.flatten) 0 with hV | hV
    · have h0 : ∀ ts n v, tauOf ts n v (variance normSq rows.flatten) = none := by
        intro ts n v
        simp [tauOf, fdiv, hV]
      simp [h0, ltF]
    · have hne : rows ≠ [] := by
        rintro rfl
        exact hV (by simp [variance, dev])
      have hM0 : (0 : ℝ) < rows.length := by exact_mod_cast List.length_pos_of_ne_nil hne
      have hVp : 0 < variance normSq rows.flatten := lt_of_le_of_ne (variance_nonneg' _) (Ne.symm hV)
      have ht : tauOf rows.flatten.length rows.length (variance normSq (rows.map avg)) (variance normSq rows.flatten)
          = some ((1 / 2) * ((C : ℝ) * variance normSq (rows.map avg) / variance normSq rows.flatten - 1)) := by
        unfold tauOf fdiv
        rw [if_neg hV, flatten_length hall]
        push_cast
        rw [Option.map_some]
        congr 1
        field_simp
      have hle : (1 / 2) * ((C : ℝ) * variance normSq (rows.map avg) / variance normSq rows.flatten - 1) ≤ ((C : ℝ) - 1) / 2 := by
        have : (C : ℝ) * variance normSq (rows.map avg) / variance normSq rows.flatten ≤ C := by
          rw [div_le_iff₀ hVp]
          exact mul_le_mul_of_nonneg_left (hBV hne) hc.le
        linarith
      have hlt : ltF (some ((1 / 2) * ((C : ℝ) * variance normSq (rows.map avg) / variance normSq rows.flatten - 1))) (6 * (C : ℝ)) = true := by
        simp only [ltF, decide_eq_true_eq]
        linarith
      rw [ht, hlt, decide_eq_true hbs]
      simp only [Bool.and_self, if_true, Option.map_some, Option.some.injEq]
      refine ⟨?_, ?_⟩
      · rintro t rfl
        exact ⟨le_max_right _ _, max_le hle (by linarith)⟩
      · rintro e rfl
        refine ⟨Real.sqrt_nonneg _, ?_⟩
        rw [Real.sq_sqrt (div_nonneg hB hM0.le)]
        exact div_le_div_of_nonneg_right (hBV hne) hM0.le

/-- the correlation time is never negative, and neither are error and variance; error and correlation time are reported together. -/
theorem C248_nonneg (shards : List (List (List ℂ))) (m C bs : Nat) (hm : Equal m shards) (hC : ∀ rows ∈ shards, Equal C rows) (r : Nat)
    (hr : r < shards.length) :
    let s := statistics normSq Real.sqrt shards C bs r
    (∀ t, s.tau = some t → 0 ≤ t) ∧ (∀ e, s.error = some e → 0 ≤ e) ∧ 0 ≤ s.variance ∧ (s.tau.isSome ↔ s.error.isSome) := by
  have hmax : ∀ (x : Option ℝ) t, x.map (fun t => max t 0) = some t → 0 ≤ t := by
    rintro (_ | a) t h
    · simp at h
    · rw [Option.map_some, Option.some.injEq] at h
      rw [← h]
      exact le_max_right _ _
  have hlt : ∀ (x : Option ℝ) b, ltF x b = true → x.isSome := by
    rintro (_ | a) b h
    · simp [ltF] at h
    · rfl
  dsimp only
  rw [statistics_plain normSq Real.sqrt shards m C bs hm hC r hr]
  unfold plain
  dsimp only
  split
  · rename_i h
    rw [Bool.and_eq_true] at h
    refine ⟨hmax _, ?_, variance_nonneg' _, by simp only [Option.isSome_map, hlt _ _ h.1, Option.isSome_some]⟩
    intro e he
    rw [Option.some.injEq] at he
    rw [← he]
    exact Real.sqrt_nonneg _
  · split
    · rename_i h
      rw [Bool.and_eq_true] at h
      refine ⟨hmax _, ?_, variance_nonneg' _, by simp only [Option.isSome_map, hlt _ _ h.1, Option.isSome_some]⟩
      intro e he
      rw [Option.some.injEq] at he
      rw [← he]
      exact Real.sqrt_nonneg _
    · exact ⟨by simp, by simp, variance_nonneg' _, by simp⟩

/-! ## Expected squared error -/

section
variable {Ω : Type} [Fintype Ω]

/-- expectation over `M` independent chains, each distributed according to `p`. -/
noncomputable def expect {M : Nat} (p : Ω → ℝ) (F : (Fin M → Ω) → ℝ) : ℝ := ∑ ω : Fin M → Ω, (∏ i, p (ω i)) * F ω

theorem expect_add {M : Nat} (p : Ω → ℝ) (F G : (Fin M → Ω) → ℝ) : expect p (fun ω => F ω + G ω) = expect p F + expect p G := by
  simp only [expect, mul_add, Finset.sum_add_distrib]

theorem expect_mul {M : Nat} (p : Ω → ℝ) (c : ℝ) (F : (Fin M → Ω) → ℝ) : expect p (fun ω => c * F ω) = c * expect p F := by
  simp only [expect, Finset.mul_sum]
  exact Finset.sum_congr rfl fun ω _ => by ring

theorem expect_sum {M : Nat} {ι : Type} (t : Finset ι) (p : Ω → ℝ) (F : ι → (Fin M → Ω) → ℝ) :
    expect p (fun ω => ∑ i ∈ t, F i ω) = ∑ i ∈ t, expect p (F i) := by
  simp only [expect, Finset.mul_sum]
  exact Finset.sum_comm

theorem expect_prod {M : Nat} (p : Ω → ℝ) (g : Fin M → Ω → ℝ) : expect p (fun ω => ∏ i, g i (ω i)) = ∏ i, ∑ x, p x * g i x := by
  classical
  rw [Finset.prod_univ_sum, Fintype.piFinset_univ, expect]
  exact Finset.sum_congr rfl fun ω _ => by rw [← Finset.prod_mul_distrib]

theorem expect_one {M : Nat} (p : Ω → ℝ) (h1 : ∑ x, p x = 1) (i : Fin M) (g : Ω → ℝ) : expect p (fun ω => g (ω i)) = ∑ x, p x * g x := by
  have h := expect_prod p (fun k x => if k = i then g x else 1)
  simp only [Finset.prod_ite_eq', Finset.mem_univ, if_true] at h
  rw [h, Finset.prod_eq_single i]
  · simp
  · intro k _ hk
    simp [hk, h1]
  · simp

theorem expect_two {M : Nat} (p : Ω → ℝ) (h1 : ∑ x, p x = 1) (i j : Fin M) (hij : i ≠ j) (g : Ω → ℝ) :
    expect p (fun ω => g (ω i) * g (ω j)) = (∑ x, p x * g x) * ∑ x, p x * g x := by
  have h := expect_prod p (fun k x => if k = i ∨ k = j then g x else 1)
  have hl : ∀ ω : Fin M → Ω, (∏ k, if k = i ∨ k = j then g (ω k) else 1) = g (ω i) * g (ω j) := by
    intro ω
    rw [Finset.prod_eq_mul i j hij]
    · simp
    · intro k _ hk
      simp [hk.1, hk.2]
    · simp
    · simp
  simp only [hl] at h
  rw [h, Finset.prod_eq_mul i j hij]
  · simp
  · intro k _ hk
    simp [hk.1, hk.2, h1]
  · simp
  · simp

/-- spread of `M` independent real numbers about their average, and the spread of the average. -/
theorem expect_spread {M : Nat} (hM : 0 < M) (p : Ω → ℝ) (h1 : ∑ x, p x = 1) (g : Ω → ℝ) :
    expect (M := M) p (fun ω => (∑ i, (g (ω i) - (∑ j, g (ω j)) / M) * (g (ω i) - (∑ j, g (ω j)) / M)) / M / M)
      = (1 - 1 / M) * expect (M := M) p (fun ω => ((∑ j, g (ω j)) / M - ∑ x, p x * g x) * ((∑ j, g (ω j)) / M - ∑ x, p x * g x)) := by
  have hm : (M : ℝ) ≠ 0 := by exact_mod_cast hM.ne'
  set μ := ∑ x, p x * g x with hμ
  set q := ∑ x, p x * (g x * g x) with hq
  have hone : expect (M := M) p (fun _ => 1) = 1 := by
    have := expect_prod (M := M) p (fun _ _ => 1)
    simpa [h1] using this
  have hS1 : expect (M := M) p (fun ω => ∑ j, g (ω j)) = M * μ := by
    rw [expect_sum]
    simp only [expect_one p h1, Finset.sum_const, Finset.card_univ, Fintype.card_fin, nsmul_eq_mul]
    rfl
  have hQ : expect (M := M) p (fun ω => ∑ j, g (ω j) * g (ω j)) = M * q := by
    rw [expect_sum]
    have : ∀ i : Fin M, expect p (fun ω : Fin M → Ω => g (ω i) * g (ω i)) = q := fun i => expect_one p h1 i fun x => g x * g x
    simp only [this, Finset.sum_const, Finset.card_univ, Fintype.card_fin, nsmul_eq_mul]
  have hS2 : expect (M := M) p (fun ω => (∑ j, g (ω j)) * ∑ j, g (ω j)) = M * q + M * (M - 1) * (μ * μ) := by
    have h2 : ∀ i : Fin M, ∑ j, expect p (fun ω : Fin M → Ω => g (ω i) * g (ω j)) = q + (M - 1) * (μ * μ) := by
      intro i
      rw [← Finset.add_sum_erase _ _ (Finset.mem_univ i)]
      have e1 : expect p (fun ω : Fin M → Ω => g (ω i) * g (ω i)) = q := expect_one p h1 i fun x => g x * g x
      have e2 : ∑ j ∈ Finset.univ.erase i, expect p (fun ω : Fin M → Ω => g (ω i) * g (ω j)) = ∑ _j ∈ Finset.univ.erase i, μ * μ := by
        refine Finset.sum_congr rfl fun j hj => ?_
        exact expect_two p h1 i j (Finset.ne_of_mem_erase hj).symm g
      rw [e1, e2, Finset.sum_const, Finset.card_erase_of_mem (Finset.mem_univ i), Finset.card_univ, Fintype.card_fin, nsmul_eq_mul,
        Nat.cast_sub hM, Nat.cast_one]
    have h3 : (fun ω : Fin M → Ω => (∑ j, g (ω j)) * ∑ j, g (ω j)) = fun ω => ∑ i, ∑ j, g (ω i) * g (ω j) := by
      funext ω
      rw [Finset.sum_mul_sum]
    rw [h3, expect_sum]
    have h4 : ∀ i : Fin M, expect p (fun ω : Fin M → Ω => ∑ j, g (ω i) * g (ω j)) = q + (M - 1) * (μ * μ) := by
      intro i
      rw [expect_sum, h2 i]
    simp only [h4, Finset.sum_const, Finset.card_univ, Fintype.card_fin, nsmul_eq_mul]
    ring
  have hL : (fun ω : Fin M → Ω => (∑ i, (g (ω i) - (∑ j, g (ω j)) / M) * (g (ω i) - (∑ j, g (ω j)) / M)) / M / M)
      = fun ω => 1 / (M * M : ℝ) * (∑ j, g (ω j) * g (ω j)) + (-(1 / (M * M * M : ℝ))) * ((∑ j, g (ω j)) * ∑ j, g (ω j)) := by
    funext ω
    have : ∀ c : ℝ, ∑ i, (g (ω i) - c) * (g (ω i) - c) = (∑ j, g (ω j) * g (ω j)) - 2 * c * (∑ j, g (ω j)) + M * (c * c) := by
      intro c
      have e : ∀ i : Fin M, (g (ω i) - c) * (g (ω i) - c) = g (ω i) * g (ω i) - 2 * c * g (ω i) + c * c := fun i => by ring
      simp only [e, Finset.sum_add_distrib, Finset.sum_sub_distrib, ← Finset.mul_sum, Finset.sum_const, Finset.card_univ, Fintype.card_fin,
        nsmul_eq_mul]
      ring
    rw [this]
    field_simp
    ring
  have hR : (fun ω : Fin M → Ω => ((∑ j, g (ω j)) / M - μ) * ((∑ j, g (ω j)) / M - μ))
      = fun ω => 1 / (M * M : ℝ) * ((∑ j, g (ω j)) * ∑ j, g (ω j)) + ((-(2 * μ / M)) * (∑ j, g (ω j)) + (μ * μ) * 1) := by
    funext ω
    field_simp
    ring
  rw [hL, hR, expect_add, expect_add, expect_add, expect_mul, expect_mul, expect_mul, expect_mul, expect_mul, hone, hS1, hS2, hQ]
  field_simp
  ring

/-- the squared error in terms of the means of the chains, with enough chains. -/
theorem error_sq (shards : List (List (List ℂ))) (m C bs : Nat) (hm : Equal m shards) (hC0 : 0 < C) (hC : ∀ rows ∈ shards, Equal C rows)
    (hbs : bs ≤ shards.flatten.length) (r : Nat) (hr : r < shards.length) :
    (statistics normSq Real.sqrt shards C bs r).error.getD 0 ^ 2 = variance normSq (shards.flatten.map avg) / shards.flatten.length := by
  have hall : Equal C shards.flatten := by
    intro x hx
    obtain ⟨rows, h1, h2⟩ := List.mem_flatten.1 hx
    exact hC rows h1 x h2
  rw [statistics_plain normSq Real.sqrt shards m C bs hm hC r hr]
  generalize shards.flatten = rows at *
  have hc : (0 : ℝ) < C := by exact_mod_cast hC0
  have hB := variance_nonneg' (rows.map avg)
  rcases eq_or_ne rows [] with rfl | hne
  · simp [plain, variance, dev, tauOf, fdiv, ltF, blockMeans]
  have hM0 : (0 : ℝ) < rows.length := by exact_mod_cast List.length_pos_of_ne_nil hne
  have hBV : variance normSq (rows.map avg) ≤ variance normSq rows.flatten := by
    rw [total_variance rows C hall hC0 hne]
    linarith [within_nonneg rows C]
  unfold plain
  dsimp only
  rcases eq_or_ne (variance normSq rows.flatten) 0 with hV | hV
  · have h0 : ∀ ts n v, tauOf ts n v (variance normSq rows.flatten) = none := by
      intro ts n v
      simp [tauOf, fdiv, hV]
    have hB0 : variance normSq (rows.map avg) = 0 := le_antisymm (hV ▸ hBV) hB
    simp [h0, ltF, hB0]
  · have hVp : 0 < variance normSq rows.flatten := lt_of_le_of_ne (variance_nonneg' _) (Ne.symm hV)
    have ht : tauOf rows.flatten.length rows.length (variance normSq (rows.map avg)) (variance normSq rows.flatten)
        = some ((1 / 2) * ((C : ℝ) * variance normSq (rows.map avg) / variance normSq rows.flatten - 1)) := by
      unfold tauOf fdiv
      rw [if_neg hV, flatten_length hall]
      push_cast
      rw [Option.map_some]
      congr 1
      field_simp
    have hlt : ltF (some ((1 / 2) * ((C : ℝ) * variance normSq (rows.map avg) / variance normSq rows.flatten - 1))) (6 * (C : ℝ)) = true := by
      simp only [ltF, decide_eq_true_eq]
      have : (C : ℝ) * variance normSq (rows.map avg) / variance normSq rows.flatten ≤ C := by
        rw [div_le_iff₀ hVp]
        exact mul_le_mul_of_nonneg_left hBV hc.le
      linarith
    rw [ht, hlt, decide_eq_true hbs]
    simp only [Bool.and_self, if_true, Option.getD_some]
    rw [Real.sq_sqrt (div_nonneg hB hM0.le)]

/-- independent chains, arbitrarily correlated inside: the expected squared error estimate is the expected squared deviation of the estimated mean from the
    true one, times `1 - 1/M` for `M` chains. -/
theorem C248_expected_error (M C bs : Nat) (hM : 0 < M) (hC0 : 0 < C) (hbs : bs ≤ M) (p : Ω → ℝ) (h1 : ∑ x, p x = 1) (X : Ω → List ℂ)
    (hX : ∀ x, (X x).length = C) (split : List (List ℂ) → List (List (List ℂ))) (m : Nat) (hsplit : ∀ rows, (split rows).flatten = rows)
    (hm : ∀ rows, rows.length = M → Equal m (split rows)) (r : Nat) (hr : ∀ rows, rows.length = M → r < (split rows).length) :
    let s := fun ω : Fin M → Ω => statistics normSq Real.sqrt (split (List.ofFn fun i => X (ω i))) C bs r
    let μ : ℂ := ∑ x, (p x : ℂ) * avg (X x)
    expect p (fun ω => (s ω).error.getD 0 ^ 2) = (1 - 1 / M) * expect p (fun ω => ‖(s ω).mean - μ‖ ^ 2) := by
  intro s μ
  have hrow : ∀ ω : Fin M → Ω, Equal C (List.ofFn fun i => X (ω i)) := by
    intro ω row h
    obtain ⟨i, rfl⟩ := List.mem_ofFn.1 h
    exact hX _
  have hC : ∀ ω : Fin M → Ω, ∀ rows ∈ split (List.ofFn fun i => X (ω i)), Equal C rows := by
    intro ω rows hrows row h
    refine hrow ω row ?_
    rw [← hsplit (List.ofFn fun i => X (ω i))]
    exact List.mem_flatten.2 ⟨rows, hrows, h⟩
  have hlen : ∀ ω : Fin M → Ω, (List.ofFn fun i => X (ω i)).length = M := fun ω => List.length_ofFn
  have havg : ∀ ω : Fin M → Ω, (List.ofFn fun i => X (ω i)).map avg = List.ofFn fun i => avg (X (ω i)) := by
    intro ω
    rw [List.map_ofFn]
    rfl
  have hE : ∀ ω : Fin M → Ω, (s ω).error.getD 0 ^ 2 = variance normSq (List.ofFn fun i => avg (X (ω i))) / M := by
    intro ω
    have := error_sq (split (List.ofFn fun i => X (ω i))) m C bs (hm _ (hlen ω)) hC0 (hC ω) (by rw [hsplit, hlen]; exact hbs) r (hr _ (hlen ω))
    rw [hsplit, havg, hlen] at this
    exact this
  have hmean : ∀ ω : Fin M → Ω, (s ω).mean = (∑ i, avg (X (ω i))) / M := by
    intro ω
    have : (s ω).mean = avg (List.ofFn fun i => X (ω i)).flatten := by
      have h := statistics_plain normSq Real.sqrt (split (List.ofFn fun i => X (ω i))) m C bs (hm _ (hlen ω)) (hC ω) r (hr _ (hlen ω))
      rw [hsplit] at h
      rw [show s ω = _ from h]
      rfl
    rw [this, avg_chains _ C (hrow ω) hC0, havg, avg, List.sum_ofFn, List.length_ofFn]
  have hre : ∀ ω : Fin M → Ω, ((∑ i, avg (X (ω i))) / (M : ℂ)).re = (∑ i, (avg (X (ω i))).re) / M := by
    intro ω
    rw [Complex.div_natCast_re, Complex.re_sum]
  have him : ∀ ω : Fin M → Ω, ((∑ i, avg (X (ω i))) / (M : ℂ)).im = (∑ i, (avg (X (ω i))).im) / M := by
    intro ω
    rw [Complex.div_natCast_im, Complex.im_sum]
  have hμr : μ.re = ∑ x, p x * (avg (X x)).re := by
    simp only [μ, Complex.re_sum, Complex.re_ofReal_mul]
  have hμi : μ.im = ∑ x, p x * (avg (X x)).im := by
    simp only [μ, Complex.im_sum, Complex.im_ofReal_mul]
  have hL : (fun ω : Fin M → Ω => (s ω).error.getD 0 ^ 2) = fun ω =>
      (∑ i, ((avg (X (ω i))).re - (∑ j, (avg (X (ω j))).re) / M) * ((avg (X (ω i))).re - (∑ j, (avg (X (ω j))).re) / M)) / M / M
      + (∑ i, ((avg (X (ω i))).im - (∑ j, (avg (X (ω j))).im) / M) * ((avg (X (ω i))).im - (∑ j, (avg (X (ω j))).im) / M)) / M / M := by
    funext ω
    have havg' : avg (List.ofFn fun i => avg (X (ω i))) = (∑ i, avg (X (ω i))) / (M : ℂ) := by
      rw [avg, List.sum_ofFn, List.length_ofFn]
    rw [hE, variance, dev, havg', List.length_ofFn, List.map_ofFn, List.sum_ofFn, ← add_div, ← add_div, ← Finset.sum_add_distrib]
    congr 2
    refine Finset.sum_congr rfl fun i _ => ?_
    rw [Function.comp, Complex.normSq_apply, Complex.sub_re, Complex.sub_im, hre, him]
  have hR : (fun ω : Fin M → Ω => ‖(s ω).mean - μ‖ ^ 2) = fun ω =>
      ((∑ j, (avg (X (ω j))).re) / M - ∑ x, p x * (avg (X x)).re) * ((∑ j, (avg (X (ω j))).re) / M - ∑ x, p x * (avg (X x)).re)
      + ((∑ j, (avg (X (ω j))).im) / M - ∑ x, p x * (avg (X x)).im) * ((∑ j, (avg (X (ω j))).im) / M - ∑ x, p x * (avg (X x)).im) := by
    funext ω
    rw [← Complex.normSq_eq_norm_sq, hmean, Complex.normSq_apply, Complex.sub_re, Complex.sub_im, hre, him, hμr, hμi]
  rw [hL, hR, expect_add, expect_add, mul_add, expect_spread hM p h1 fun x => (avg (X x)).re, expect_spread hM p h1 fun x => (avg (X x)).im]

end

/-! ## R̂ -/

/-- the Gelman-Rubin ratio: `√((C - 1)/C + B/W)` with `B` the variance of the means of the chains and `W` the mean of their variances. -/
noncomputable def gelmanRubin (rows : List (List ℂ)) (C : Nat) : ℝ :=
  Real.sqrt (((C : ℝ) - 1) / C + variance normSq (rows.map avg) / avg (rows.map fun row => variance normSq row))

theorem within_avg (rows : List (List ℂ)) (C : Nat) (hC : Equal C rows) : within rows C = avg (rows.map fun row => variance normSq row) := by
  have : (rows.map fun row => variance normSq row) = (rows.map fun row => dev normSq row (avg row)).map fun x => x / (C : ℝ) := by
    rw [List.map_map]
    refine List.map_congr_left fun row hrow => ?_
    rw [Function.comp, variance, hC row hrow]
  rw [this, avg, map_div_sum, within, List.length_map, List.length_map, div_div]
  push_cast
  ring_nf

theorem sum_zero_mem : ∀ l : List ℝ, (∀ x ∈ l, 0 ≤ x) → l.sum = 0 → ∀ x ∈ l, x = 0
  | [], _, _, x, hx => by simp at hx
  | a :: t, h, hs, x, hx => by
    have ha := h a (by simp)
    have ht : ∀ y ∈ t, 0 ≤ y := fun y hy => h y (List.mem_cons_of_mem _ hy)
    have hts := List.sum_nonneg ht
    rw [List.sum_cons] at hs
    rcases List.mem_cons.1 hx with rfl | hx
    · linarith
    · exact sum_zero_mem t ht (by linarith) x hx

theorem variance_zero (l : List ℂ) (hl : l ≠ []) : variance normSq l = 0 ↔ ∀ x ∈ l, x = avg l := by
  have hM0 : (l.length : ℝ) ≠ 0 := by simpa using hl
  rw [variance, div_eq_zero_iff, or_iff_left hM0, dev]
  constructor
  · intro h x hx
    have := sum_zero_mem _ (by
      intro y hy
      obtain ⟨z, _, rfl⟩ := List.mem_map.1 hy
      exact Complex.normSq_nonneg _) h _ (List.mem_map.2 ⟨x, hx, rfl⟩)
    exact sub_eq_zero.1 (Complex.normSq_eq_zero.1 this)
  · intro h
    refine List.sum_eq_zero ?_
    intro y hy
    obtain ⟨z, hz, rfl⟩ := List.mem_map.1 hy
    rw [← h z hz, sub_self, map_zero]

/-- C249 in full – R̂ is the Gelman-Rubin ratio – is false: two chains `0, 1` and `2, 3`. -/
theorem C249_gelman_rubin_refuted : ¬ ∀ (rows : List (List ℂ)) (C bs : Nat), Equal C rows → 1 < C → 1 < rows.length → within rows C ≠ 0 →
    (statistics normSq Real.sqrt [rows] C bs 0).rHat = some (gelmanRubin rows C) := by
  intro h
  have hE : Equal 2 [[(0 : ℂ), 1], [2, 3]] := by simp [Equal]
  have hw : within [[(0 : ℂ), 1], [2, 3]] 2 = 1 / 4 := by
    simp [within, dev, avg, Complex.normSq_apply]
    norm_num
  have hb : variance normSq ([[(0 : ℂ), 1], [2, 3]].map avg) = 1 := by
    simp [variance, dev, avg, Complex.normSq_apply]
    norm_num
  have hv : variance normSq [[(0 : ℂ), 1], [2, 3]].flatten = 5 / 4 := by
    rw [total_variance _ 2 hE (by decide) (by simp), hw, hb]
    norm_num
  have h1 := h [[0, 1], [2, 3]] 2 1 hE (by decide) (by decide) (by rw [hw]; norm_num)
  rw [C81_rhat normSq Real.sqrt [[[0, 1], [2, 3]]] 2 2 1 (by simp [Equal]) (by simpa using hE) 0 (by decide) (by decide) (by
    simp only [List.flatten_cons, List.flatten_nil, List.append_nil] at hv ⊢
    rw [hv]
    norm_num), Option.some.injEq, gelmanRubin, ← within_avg _ 2 hE, hw] at h1
  simp only [List.flatten_cons, List.flatten_nil, List.append_nil] at hv h1
  rw [hb, hv, Real.sqrt_inj (by norm_num) (by norm_num)] at h1
  norm_num at h1

/-- what holds: R̂ is never above the Gelman-Rubin ratio `G`, `G² = (C - 1)/C + x` gives `R̂² = (C - 1)/C + x / (1 + x)`, and the two agree only when all
    chains have the same mean. -/
theorem C249_gelman_rubin_partial (shards : List (List (List ℂ))) (m C bs : Nat) (hm : Equal m shards) (hC0 : 0 < C)
    (hC : ∀ rows ∈ shards, Equal C rows) (r : Nat) (hr : r < shards.length) (hn : 1 < shards.length * m)
    (hW : avg (shards.flatten.map fun row => variance normSq row) ≠ 0) :
    ∃ q x, (statistics normSq Real.sqrt shards C bs r).rHat = some q ∧ 0 ≤ x ∧ gelmanRubin shards.flatten C ^ 2 = ((C : ℝ) - 1) / C + x ∧
      q ^ 2 = ((C : ℝ) - 1) / C + x / (1 + x) ∧ q ≤ gelmanRubin shards.flatten C ∧
      (q = gelmanRubin shards.flatten C ↔ ∀ row ∈ shards.flatten, avg row = avg shards.flatten.flatten) := by
  have hall : Equal C shards.flatten := by
    intro x hx
    obtain ⟨rows, h1, h2⟩ := List.mem_flatten.1 hx
    exact hC rows h1 x h2
  have hne : shards.flatten ≠ [] := by
    intro h0
    have := congrArg List.length h0
    rw [flatten_length hm, List.length_nil] at this
    omega
  rw [← within_avg _ C hall] at hW
  have hWp : 0 < within shards.flatten C := lt_of_le_of_ne (within_nonneg _ _) (Ne.symm hW)
  have hB := variance_nonneg' (shards.flatten.map avg)
  have hV := total_variance shards.flatten C hall hC0 hne
  have hVp : 0 < variance normSq shards.flatten.flatten := by
    rw [hV]
    linarith
  have hc1 : (1 : ℝ) ≤ C := by exact_mod_cast hC0
  have hfr : 0 ≤ ((C : ℝ) - 1) / C := div_nonneg (by linarith) (by linarith)
  rw [C81_rhat normSq Real.sqrt shards m C bs hm hC r hr hn hVp.ne']
  have hBW : 0 ≤ variance normSq (shards.flatten.map avg) / within shards.flatten C := div_nonneg hB hWp.le
  have hBV : 0 ≤ variance normSq (shards.flatten.map avg) / variance normSq shards.flatten.flatten := div_nonneg hB hVp.le
  have hle : variance normSq (shards.flatten.map avg) / variance normSq shards.flatten.flatten
      ≤ variance normSq (shards.flatten.map avg) / within shards.flatten C :=
    div_le_div_of_nonneg_left hB hWp (by rw [hV]; linarith)
  refine ⟨_, variance normSq (shards.flatten.map avg) / within shards.flatten C, rfl, hBW, ?_, ?_, ?_, ?_⟩
  · rw [gelmanRubin, ← within_avg _ C hall, Real.sq_sqrt (by linarith)]
  · rw [Real.sq_sqrt (by linarith), hV]
    have : within shards.flatten C + variance normSq (shards.flatten.map avg) ≠ 0 := by linarith
    congr 1
    field_simp
  · rw [gelmanRubin, ← within_avg _ C hall]
    exact Real.sqrt_le_sqrt (by linarith)
  · rw [gelmanRubin, ← within_avg _ C hall, Real.sqrt_inj (by linarith) (by linarith)]
    have hzero : variance normSq (shards.flatten.map avg) = 0 ↔ ∀ row ∈ shards.flatten, avg row = avg shards.flatten.flatten := by
      rw [avg_chains _ C hall hC0, variance_zero _ (fun h => hne (List.map_eq_nil_iff.1 h))]
      constructor
      · exact fun h row hrow => h _ (List.mem_map.2 ⟨row, hrow, rfl⟩)
      · intro h x hx
        obtain ⟨row, hrow, rfl⟩ := List.mem_map.1 hx
        exact h row hrow
    rw [← hzero]
    constructor
    · intro h
      have h2 : variance normSq (shards.flatten.map avg) / variance normSq shards.flatten.flatten
          = variance normSq (shards.flatten.map avg) / within shards.flatten C := by linarith
      by_contra hb
      rw [div_eq_div_iff hVp.ne' hWp.ne', hV] at h2
      have : variance normSq (shards.flatten.map avg) * variance normSq (shards.flatten.map avg) = 0 := by linarith
      exact hb (mul_self_eq_zero.1 this)
    · intro h
      rw [h]
      simp

/-- chains which never move, not all in the same place: R̂ is `√(2 - 1/C)`, whatever their distance. -/
theorem C249_frozen (shards : List (List (List ℂ))) (m C bs : Nat) (hm : Equal m shards) (hC0 : 0 < C) (r : Nat) (hr : r < shards.length)
    (hf : ∀ row ∈ shards.flatten, ∃ x, row = List.replicate C x) (hn : 1 < shards.length * m)
    (hd : ∃ row ∈ shards.flatten, ∃ row' ∈ shards.flatten, row ≠ row') :
    (statistics normSq Real.sqrt shards C bs r).rHat = some (Real.sqrt (2 - 1 / C)) := by
  have hall : Equal C shards.flatten := by
    intro row hrow
    obtain ⟨x, rfl⟩ := hf row hrow
    simp
  have hC : ∀ rows ∈ shards, Equal C rows := fun rows h row hrow => hall row (List.mem_flatten.2 ⟨rows, h, hrow⟩)
  have hc : (C : ℂ) ≠ 0 := by exact_mod_cast hC0.ne'
  have hcr : (C : ℝ) ≠ 0 := by exact_mod_cast hC0.ne'
  have hrep : ∀ x : ℂ, avg (List.replicate C x) = x := by
    intro x
    rw [avg, List.sum_replicate, List.length_replicate, nsmul_eq_mul]
    field_simp
  have hne : shards.flatten ≠ [] := by
    intro h0
    have := congrArg List.length h0
    rw [flatten_length hm, List.length_nil] at this
    omega
  have hw : within shards.flatten C = 0 := by
    have : (shards.flatten.map fun row => dev normSq row (avg row)).sum = 0 := by
      refine List.sum_eq_zero ?_
      intro y hy
      obtain ⟨row, hrow, rfl⟩ := List.mem_map.1 hy
      obtain ⟨x, rfl⟩ := hf row hrow
      rw [hrep, dev]
      simp
    rw [within, this, zero_div]
  have hV := total_variance shards.flatten C hall hC0 hne
  rw [hw, zero_add] at hV
  have hB : variance normSq (shards.flatten.map avg) ≠ 0 := by
    intro h0
    have h1 := (variance_zero _ (fun h => hne (List.map_eq_nil_iff.1 h))).1 h0
    obtain ⟨row, hrow, row', hrow', hd⟩ := hd
    have h2 := h1 _ (List.mem_map.2 ⟨row, hrow, rfl⟩)
    have h3 := h1 _ (List.mem_map.2 ⟨row', hrow', rfl⟩)
    obtain ⟨x, rfl⟩ := hf row hrow
    obtain ⟨x', rfl⟩ := hf row' hrow'
    rw [hrep] at h2 h3
    exact hd (by rw [h2, h3])
  rw [C81_rhat normSq Real.sqrt shards m C bs hm hC r hr hn (by rw [hV]; exact hB), hV, div_self hB]
  congr 2
  field_simp
  ring

/-! ## The hypotheses are met -/

/-- two processes with one chain each, and one process with the same chains in the other order. -/
example : statistics normSq Real.sqrt [[[1, 2]], [[3, Complex.I]]] 2 2 1 = statistics normSq Real.sqrt [[[3, Complex.I], [1, 2]]] 2 2 0 :=
  C248_order normSq Real.sqrt [[[1, 2]], [[3, Complex.I]]] [[[3, Complex.I], [1, 2]]] 1 2 2 2 (by simp [Equal]) (by simp [Equal]) (by simp [Equal]) (List.Perm.swap _ _ _) 1 0 (by decide) (by decide)

example : (statistics normSq Real.sqrt [[[2 * Complex.I * 1 + 5, 2 * Complex.I * 2 + 5], [2 * Complex.I * 3 + 5, 2 * Complex.I * 7 + 5]]] 2 2 0).rHat
    = (statistics normSq Real.sqrt [[[1, 2], [3, 7]]] 2 2 0).rHat := by
  have := C248_scaling (2 * Complex.I) 5 (by simp) [[[1, 2], [3, 7]]] 2 2 2 (by simp [Equal]) (by decide) (by decide) (by simp [Equal]) 0 (by decide)
  simp only [List.map_cons, List.map_nil] at this
  rw [this]

/-- chains at rest at 0 and at 10. -/
example : (statistics normSq Real.sqrt [[[0, 0]], [[10, 10]]] 2 2 0).rHat = some (Real.sqrt (2 - 1 / (2 : Nat))) :=
  C249_frozen [[[0, 0]], [[10, 10]]] 1 2 2 (by simp [Equal]) (by decide) 0 (by decide)
    (by simp [List.replicate_succ]) (by decide) ⟨[0, 0], by simp, [10, 10], by simp, by simp⟩

/-- three chains of two samples each, with the values of a fair coin, repeated. -/
example : expect (M := 3) (fun _ : Bool => (1 / 2 : ℝ))
      (fun ω => (statistics normSq Real.sqrt [List.ofFn fun i => if ω i then [(1 : ℂ), 1] else [0, 1]] 2 2 0).error.getD 0 ^ 2)
    = (1 - 1 / (3 : Nat)) * expect (M := 3) (fun _ : Bool => (1 / 2 : ℝ)) (fun ω =>
      ‖(statistics normSq Real.sqrt [List.ofFn fun i => if ω i then [(1 : ℂ), 1] else [0, 1]] 2 2 0).mean
        - ∑ x : Bool, (((1 / 2 : ℝ)) : ℂ) * avg (if x then [(1 : ℂ), 1] else [0, 1])‖ ^ 2) :=
  C248_expected_error 3 2 2 (by decide) (by decide) (by decide) (fun _ : Bool => (1 / 2 : ℝ)) (by simp) (fun x => if x then [(1 : ℂ), 1] else [0, 1])
    (by intro x; cases x <;> rfl) (fun rows => [rows]) 3 (by simp) (by intro rows h; simpa [Equal] using h) 0 (by simp)

/-- the bounds for two chains at rest. -/
example : Real.sqrt (2 - 1 / (2 : Nat)) < Real.sqrt 2 := by
  have h := C249_frozen [[[0, 0]], [[10, 10]]] 1 2 2 (by simp [Equal]) (by decide) 0 (by decide)
    (by simp [List.replicate_succ]) (by decide) ⟨[0, 0], by simp, [10, 10], by simp, by simp⟩
  exact ((C248_bounds [[[0, 0]], [[10, 10]]] 1 2 2 (by simp [Equal]) (by decide) (by simp [Equal]) 0 (by decide)).1 _ h).2.2

example := C248_nonneg [[[0, 1]], [[2, 3 * Complex.I]]] 1 2 2 (by simp [Equal]) (by simp [Equal]) 1 (by decide)

/-- two chains on two processes with a variance inside the chains. -/
example : ∃ q, (statistics normSq Real.sqrt [[[0, 1]], [[2, 3]]] 2 2 1).rHat = some q ∧ q ≤ gelmanRubin [[0, 1], [2, 3]] 2 := by
  obtain ⟨q, _, h, _, _, _, hle, _⟩ := C249_gelman_rubin_partial [[[0, 1]], [[2, 3]]] 1 2 2 (by simp [Equal]) (by decide) (by simp [Equal]) 1 (by decide)
    (by decide) (by
      simp [variance, dev, avg, Complex.normSq_apply]
      norm_num)
  exact ⟨q, h, hle⟩

end Verif.Stats
