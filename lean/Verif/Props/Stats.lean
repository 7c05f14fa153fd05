import Verif.Model.Stats
import Mathlib.Algebra.BigOperators.Group.List.Basic
import Mathlib.Algebra.CharZero.Defs
import Mathlib.Algebra.Order.Ring.Rat
import Mathlib.Data.Rat.Cast.Order
import Mathlib.Algebra.BigOperators.Ring.List
import Mathlib.Algebra.Order.BigOperators.Group.List
import Mathlib.Analysis.Complex.Basic
import Mathlib.Tactic.FieldSimp
import Mathlib.Tactic.Linarith
import Mathlib.Tactic.Ring

/-!
C54: statistics do not depend on how the samples are split over the ranks. C81: error estimates.
-/

namespace Verif.Stats

set_option linter.unusedSectionVars false

variable {K R : Type}

/-- every rank holds `L` entries. -/
def Equal {A : Type} (L : Nat) (shards : List (List A)) : Prop := ∀ a ∈ shards, a.length = L

/-- the average of a list, as a specification. -/
def avg [Field K] (l : List K) : K := l.sum / (l.length : K)

theorem flatten_length {A : Type} {L : Nat} : ∀ {shards : List (List A)}, Equal L shards →
    shards.flatten.length = shards.length * L
  | [], _ => by simp
  | a :: t, h => by
    have := flatten_length (shards := t) fun b hb => h b (List.mem_cons_of_mem _ hb)
    rw [List.flatten_cons, List.length_append, this, h a (by simp), List.length_cons]; ring

theorem sum_flatten' [AddCommMonoid K] : ∀ shards : List (List K), (shards.map List.sum).sum = shards.flatten.sum
  | [] => rfl
  | a :: t => by rw [List.map_cons, List.sum_cons, sum_flatten' t, List.flatten_cons, List.sum_append]

/-- the sum over all ranks is the sum of the concatenated data (for shards of any sizes). -/
theorem C54_sum [AddCommMonoid K] (shards : List (List K)) : sum shards = shards.flatten.sum :=
  sum_flatten' shards

theorem map_div_sum [Field K] (c : K) : ∀ l : List K, (l.map fun x => x / c).sum = l.sum / c
  | [] => by simp
  | a :: t => by simp only [List.map_cons, List.sum_cons, map_div_sum c t]; ring

/-- **Mean.** For equally sized shards the mean over all ranks is the average of all the data. -/
theorem C54_mean [Field K] (L : Nat) (shards : List (List K)) (h : Equal L shards) :
    mean shards = avg shards.flatten := by
  unfold mean mpiMean mpiSum avg
  have h1 : shards.map localMean = (shards.map List.sum).map fun x => x / (L : K) := by
    rw [List.map_map]
    apply List.map_congr_left
    intro a ha
    simp only [localMean, Function.comp, h a ha]
  rw [h1, map_div_sum, sum_flatten', flatten_length h]
  simp only [List.length_map]
  push_cast
  rw [div_div, mul_comm]

theorem map_flatten' {A B : Type} (f : A → B) : ∀ l : List (List A),
    (l.map fun a => a.map f).flatten = l.flatten.map f
  | [] => rfl
  | a :: t => by simp only [List.map_cons, List.flatten_cons, List.map_append, map_flatten' f t]

theorem getD_mem_length {A : Type} {L : Nat} {shards : List (List A)} (h : Equal L shards) {r : Nat}
    (hr : r < shards.length) : (shards.getD r []).length = L := by
  rw [List.getD, List.getElem?_eq_getElem hr]; exact h _ (List.getElem_mem hr)

/-- `total_size` is the size of the concatenated data, on every rank. -/
theorem C54_total_size {A : Type} (L : Nat) (shards : List (List A)) (h : Equal L shards) (r : Nat)
    (hr : r < shards.length) : totalSize shards.length (shards.getD r []) = shards.flatten.length := by
  rw [totalSize, getD_mem_length h hr, flatten_length h, Nat.mul_comm]

/-- **Variance.** For equally sized shards the variance on every rank is that of all the data. -/
theorem C54_var [Field K] [Field R] (abs2 : K → R) (L : Nat) (shards : List (List K)) (h : Equal L shards)
    (r : Nat) (hr : r < shards.length) (ddof : Nat) :
    var abs2 shards r ddof =
      (shards.flatten.map fun x => abs2 (x - avg shards.flatten)).sum /
        ((shards.flatten.length : R) - (ddof : R)) := by
  rw [var, C54_total_size L shards h r hr, C54_sum, map_flatten', C54_mean L shards h]

/-- `subtract_mean` subtracts the average of all the data everywhere. -/
theorem C54_subtract_mean [Field K] (L : Nat) (shards : List (List K)) (h : Equal L shards) :
    (subtractMean shards).flatten = shards.flatten.map fun x => x - avg shards.flatten := by
  rw [subtractMean, map_flatten', C54_mean L shards h]

/-- means along the first axis, component by component. -/
theorem C54_mean_axis {J : Type} [Field K] (L : Nat) (shards : List (List (J → K))) (h : Equal L shards)
    (j : J) : meanAxis shards j = avg (shards.flatten.map fun row => row j) := by
  rw [meanAxis, C54_mean L, map_flatten' (fun row : J → K => row j)]
  intro a ha
  rcases List.mem_map.1 ha with ⟨b, hb, rfl⟩
  rw [List.length_map, h b hb]

/-- The centred data average to zero. -/
theorem C54_centred [Field K] [CharZero K] (L : Nat) (shards : List (List K)) (h : Equal L shards)
    (hne : shards.flatten ≠ []) : mean (subtractMean shards) = 0 := by
  have h' : Equal L (subtractMean shards) := by
    intro a ha
    rcases List.mem_map.1 ha with ⟨b, hb, rfl⟩
    rw [List.length_map, h b hb]
  rw [C54_mean L _ h', C54_subtract_mean L _ h]
  generalize shards.flatten = l at hne ⊢
  have hs : ∀ (c : K) (m : List K), (m.map fun x => x - c).sum = m.sum - m.length * c := by
    intro c m
    induction m with
    | nil => simp
    | cons a t ih => simp only [List.map_cons, List.sum_cons, ih, List.length_cons]; push_cast; ring
  have h0 : (l.length : K) ≠ 0 := by
    simpa using hne
  rw [avg, hs, avg, mul_div_cancel₀ _ h0, sub_self, zero_div]

/-- With shards of different sizes the mean is the mean of the means. -/
theorem C54_unequal_differ :
    ¬ ∀ shards : List (List ℚ), (∀ a ∈ shards, a ≠ []) → mean shards = avg shards.flatten := by
  intro h
  have := h [[1], [0, 0]] (by simp)
  simp [mean, avg, mpiMean, mpiSum, localMean] at this

theorem equal_map {A B : Type} {L : Nat} {shards : List (List A)} (f : List A → List B) {L' : Nat}
    (hf : ∀ a, a.length = L → a ∈ shards → (f a).length = L') (h : Equal L shards) :
    Equal L' (shards.map f) := by
  intro b hb
  rcases List.mem_map.1 hb with ⟨a, ha, rfl⟩
  exact hf a (h a ha) ha

theorem equal_one {A : Type} (a : List A) : Equal a.length [a] := by
  intro b hb; simp at hb; rw [hb]

theorem mean_one [Field K] (L : Nat) (shards : List (List K)) (h : Equal L shards) :
    mean shards = mean [shards.flatten] := by
  rw [C54_mean L _ h, C54_mean _ _ (equal_one _)]; simp

theorem var_one [Field K] [Field R] (abs2 : K → R) (L : Nat) (shards : List (List K)) (h : Equal L shards)
    (r : Nat) (hr : r < shards.length) (d : Nat) :
    var abs2 shards r d = var abs2 [shards.flatten] 0 d := by
  rw [C54_var abs2 L _ h r hr, C54_var abs2 _ _ (equal_one _) 0 (by simp)]; simp

theorem size_one {A : Type} (L : Nat) (shards : List (List A)) (h : Equal L shards) (r : Nat)
    (hr : r < shards.length) :
    totalSize shards.length (shards.getD r []) = totalSize 1 ([shards.flatten].getD 0 []) := by
  rw [C54_total_size L _ h r hr]; simp [totalSize]

theorem flatten_flatten' {A : Type} : ∀ l : List (List (List A)), (l.map List.flatten).flatten = l.flatten.flatten
  | [] => rfl
  | a :: t => by simp [flatten_flatten' t]

theorem flatMap_flatten' {A B : Type} (f : A → List B) : ∀ l : List (List A),
    (l.map fun a => a.flatMap f).flatten = l.flatten.flatMap f
  | [] => rfl
  | a :: t => by simp only [List.map_cons, List.flatten_cons, List.flatMap_append, flatMap_flatten' f t]

theorem flatMap_length_const {A B : Type} (f : A → List B) (k : Nat) : ∀ l : List A,
    (∀ a ∈ l, (f a).length = k) → (l.flatMap f).length = l.length * k
  | [], _ => by simp
  | a :: t, h => by
    rw [List.flatMap_cons, List.length_append, h a (by simp),
      flatMap_length_const f k t fun b hb => h b (List.mem_cons_of_mem _ hb), List.length_cons]
    ring

/-- **Monte Carlo statistics.** If every rank holds `m` chains of length `C`, the statistics computed on
every rank (mean, variance, error of the mean, correlation time, split R̂) are those computed on a single
rank from all the chains. -/
theorem C54_statistics [Field K] [Field R] [LinearOrder R] (abs2 : K → R) (sqrt : R → R)
    (shards : List (List (List K))) (m C b : Nat) (hm : Equal m shards)
    (hC : ∀ rows ∈ shards, Equal C rows) (r : Nat) (hr : r < shards.length) :
    statistics abs2 sqrt shards C b r = statistics abs2 sqrt [shards.flatten] C b 0 := by
  have e1 : Equal (m * C) (shards.map List.flatten) := by
    refine equal_map _ ?_ hm
    intro a ha hs
    rw [flatten_length (hC a hs), ha]
  have e2 : Equal m (shards.map fun rows => rows.map (localMean : List K → K)) :=
    equal_map _ (by intro a ha _; rw [List.length_map, ha]) hm
  have e3 : ∀ l : Nat, Equal (m * (C / l)) (shards.map fun rows => getBlocks rows C l) := by
    intro l
    refine equal_map _ ?_ hm
    intro a ha _
    rw [getBlocks, flatMap_length_const _ (C / l), ha]
    intro row _
    simp [pieces]
  have r1 : r < (shards.map List.flatten).length := by simpa using hr
  have r2 : r < (shards.map fun rows => rows.map (localMean : List K → K)).length := by simpa using hr
  have r3 : ∀ l : Nat, r < (shards.map fun rows => getBlocks rows C l).length := by
    intro l; simpa using hr
  have f2 : (shards.map fun rows => rows.map (localMean : List K → K)).flatten =
      shards.flatten.map localMean := map_flatten' _ _
  have f3 : ∀ l : Nat, (shards.map fun rows => getBlocks rows C l).flatten = getBlocks shards.flatten C l := by
    intro l; exact flatMap_flatten' _ _
  have t1 := size_one _ _ e1 r r1
  have t2 := size_one _ _ e2 r r2
  have t3 := fun l => size_one _ _ (e3 l) r (r3 l)
  rw [List.length_map] at t1 t2
  simp only [List.length_map] at t3
  unfold statistics
  simp only [mean_one _ _ e1, var_one abs2 _ _ e1 r r1, var_one abs2 _ _ e2 r r2,
    var_one abs2 _ _ (e3 _) r (r3 _), t1, t2, t3, flatten_flatten', f2, f3, List.map_cons, List.map_nil,
    List.length_cons, List.length_nil, Nat.zero_add]

/-- two ranks with two chains of three samples each. -/
example : Equal 2 [[[1, 2, 3], [0, 1, 0]], [[2, 2, 2], [1, 0, (5 : ℚ)]]] ∧
    ∀ rows ∈ [[[1, 2, 3], [0, 1, 0]], [[2, 2, 2], [1, 0, (5 : ℚ)]]], Equal 3 rows := by
  constructor <;> simp [Equal]

/-- … whose mean is not that of one of the ranks. -/
example : mean [[1, 2, 3, 0, 1, 0], [2, 2, 2, 1, 0, (5 : ℚ)]] ≠ mean [[1, 2, 3, 0, 1, (0 : ℚ)]] := by
  simp [mean, mpiMean, mpiSum, localMean]
  norm_num

/-! ### C81: when an error estimate is available -/

/-- What is used of `|x|²`: it is non-negative, vanishes only at zero, is convex (Jensen) and the average
minimises the sum of squares. Satisfied by real and complex numbers, see below. -/
structure IsAbs2 [Field K] [Field R] [LinearOrder R] (abs2 : K → R) : Prop where
  /-- non-negative -/
  nonneg : ∀ x, 0 ≤ abs2 x
  /-- definite -/
  definite : ∀ x, abs2 x = 0 → x = 0
  /-- zero -/
  zero : abs2 0 = 0
  /-- convex -/
  jensen : ∀ (l : List K) (c : K), l ≠ [] → (l.length : R) * abs2 (avg l - c) ≤ (l.map fun x => abs2 (x - c)).sum
  /-- the average is the best centre -/
  best : ∀ (l : List K) (c : K), (l.map fun x => abs2 (x - avg l)).sum ≤ (l.map fun x => abs2 (x - c)).sum

theorem sum_sq_centre [Field K] [CharZero K] (l : List K) (hl : l ≠ []) (c : K) :
    (l.map fun x => (x - c) * (x - c)).sum =
      (l.map fun x => (x - avg l) * (x - avg l)).sum + (l.length : K) * ((avg l - c) * (avg l - c)) := by
  have hs : ∀ (c : K) (m : List K), (m.map fun x => (x - c) * (x - c)).sum =
      (m.map fun x => x * x).sum - 2 * c * m.sum + m.length * (c * c) := by
    intro c m
    induction m with
    | nil => simp
    | cons a t ih => simp only [List.map_cons, List.sum_cons, ih, List.length_cons]; push_cast; ring
  have h0 : (l.length : K) ≠ 0 := by simpa using hl
  rw [hs, hs, avg]
  field_simp
  ring

/-- squares of real numbers. -/
theorem isAbs2_sq [Field R] [LinearOrder R] [IsStrictOrderedRing R] : IsAbs2 (fun x : R => x * x) where
  nonneg x := mul_self_nonneg x
  definite x h := mul_self_eq_zero.1 h
  zero := by simp
  jensen l c hl := by
    rw [sum_sq_centre l hl c]
    have : 0 ≤ (l.map fun x => (x - avg l) * (x - avg l)).sum :=
      List.sum_nonneg (by intro x hx; rcases List.mem_map.1 hx with ⟨y, _, rfl⟩; exact mul_self_nonneg _)
    linarith
  best l c := by
    rcases eq_or_ne l [] with rfl | hl
    · simp
    rw [sum_sq_centre l hl c]
    have : 0 ≤ (l.length : R) * ((avg l - c) * (avg l - c)) :=
      mul_nonneg (Nat.cast_nonneg _) (mul_self_nonneg _)
    linarith

theorem sum_re (l : List ℂ) : l.sum.re = (l.map Complex.re).sum := by
  induction l with
  | nil => rfl
  | cons a t ih => simp [ih]

theorem sum_im (l : List ℂ) : l.sum.im = (l.map Complex.im).sum := by
  induction l with
  | nil => rfl
  | cons a t ih => simp [ih]

theorem avg_re (l : List ℂ) : (avg l).re = avg (l.map Complex.re) := by
  rw [avg, avg, ← sum_re, List.length_map, Complex.div_natCast_re]

theorem avg_im (l : List ℂ) : (avg l).im = avg (l.map Complex.im) := by
  rw [avg, avg, ← sum_im, List.length_map, Complex.div_natCast_im]

theorem sum_normSq (l : List ℂ) (c : ℂ) : (l.map fun x => Complex.normSq (x - c)).sum =
    ((l.map Complex.re).map fun x => (x - c.re) * (x - c.re)).sum +
      ((l.map Complex.im).map fun x => (x - c.im) * (x - c.im)).sum := by
  induction l with
  | nil => simp
  | cons a t ih =>
    simp only [List.map_cons, List.sum_cons]
    rw [ih, Complex.normSq_apply, Complex.sub_re, Complex.sub_im]; ring

/-- squared moduli of complex numbers. -/
theorem isAbs2_normSq : IsAbs2 (fun x : ℂ => Complex.normSq x) where
  nonneg x := Complex.normSq_nonneg x
  definite x h := Complex.normSq_eq_zero.1 h
  zero := by simp
  jensen l c hl := by
    have h1 := (isAbs2_sq (R := ℝ)).jensen (l.map Complex.re) c.re (by simpa using hl)
    have h2 := (isAbs2_sq (R := ℝ)).jensen (l.map Complex.im) c.im (by simpa using hl)
    rw [sum_normSq, Complex.normSq_apply, Complex.sub_re, Complex.sub_im, avg_re, avg_im]
    rw [List.length_map] at h1 h2
    linarith
  best l c := by
    have h1 := (isAbs2_sq (R := ℝ)).best (l.map Complex.re) c.re
    have h2 := (isAbs2_sq (R := ℝ)).best (l.map Complex.im) c.im
    rw [sum_normSq, sum_normSq, avg_re, avg_im]
    linarith

section error
variable [Field K] [Field R] [LinearOrder R] [IsStrictOrderedRing R]

/-- sum of the squared deviations from `c` (unnormalised variance about `c`). -/
def dev (abs2 : K → R) (l : List K) (c : K) : R := (l.map fun x => abs2 (x - c)).sum

theorem dev_nonneg {abs2 : K → R} (h : IsAbs2 abs2) (l : List K) (c : K) : 0 ≤ dev abs2 l c :=
  List.sum_nonneg (by intro x hx; rcases List.mem_map.1 hx with ⟨y, _, rfl⟩; exact h.nonneg _)

theorem dev_append (abs2 : K → R) (l m : List K) (c : K) : dev abs2 (l ++ m) c = dev abs2 l c + dev abs2 m c := by
  simp [dev]

theorem localMean_eq_avg (l : List K) : localMean l = avg l := rfl

/-- groups of `l` entries: the deviation of the group means is at most the deviation of the entries
divided by `l`. -/
theorem dev_groups {abs2 : K → R} (h : IsAbs2 abs2) (l : Nat) (hl : 0 < l) (c : K) : ∀ gs : List (List K),
    Equal l gs → (l : R) * dev abs2 (gs.map localMean) c ≤ dev abs2 gs.flatten c
  | [], _ => by simp [dev]
  | g :: t, hg => by
    have ih := dev_groups h l hl c t fun a ha => hg a (List.mem_cons_of_mem _ ha)
    have hne : g ≠ [] := by
      intro h0
      have := hg g (by simp)
      rw [h0] at this
      simp at this
      omega
    have hj := h.jensen g c hne
    rw [hg g (by simp)] at hj
    rw [List.flatten_cons, dev_append]
    have : dev abs2 ((g :: t).map localMean) c = abs2 (avg g - c) + dev abs2 (t.map localMean) c := by
      simp [dev, localMean_eq_avg]
    rw [this, mul_add]
    have hj' : (l : R) * abs2 (avg g - c) ≤ dev abs2 g c := hj
    linarith

theorem pieces_flatten {A : Type} (l : Nat) : ∀ (n : Nat) (row : List A), n * l ≤ row.length →
    (pieces l n row).flatten = row.take (n * l)
  | 0, row, _ => by simp [pieces]
  | n + 1, row, h => by
    have ih := pieces_flatten l n row (le_trans (Nat.mul_le_mul_right _ (Nat.le_succ n)) h)
    unfold pieces at ih ⊢
    rw [List.range_succ, List.map_append, List.flatten_append, ih, Nat.succ_mul, List.take_add]
    simp

theorem dev_pieces {abs2 : K → R} (h : IsAbs2 abs2) (l n : Nat) (row : List K) (c : K) (hn : n * l ≤ row.length) :
    dev abs2 (pieces l n row).flatten c ≤ dev abs2 row c := by
  rw [pieces_flatten l n row hn]
  conv_rhs => rw [← List.take_append_drop (n * l) row]
  rw [dev_append]
  linarith [dev_nonneg h (row.drop (n * l)) c]

theorem pieces_equal {A : Type} (l n : Nat) (row : List A) (hn : n * l ≤ row.length) : Equal l (pieces l n row) := by
  intro a ha
  rcases List.mem_map.1 ha with ⟨i, hi, rfl⟩
  rw [List.mem_range] at hi
  rw [List.length_take, List.length_drop]
  have : (i + 1) * l ≤ n * l := Nat.mul_le_mul_right _ hi
  rw [Nat.succ_mul] at this
  omega

theorem dev_blocks {abs2 : K → R} (h : IsAbs2 abs2) (C l : Nat) (hl : 0 < l) (c : K) : ∀ rows : List (List K),
    Equal C rows → (l : R) * dev abs2 (getBlocks rows C l) c ≤ dev abs2 rows.flatten c
  | [], _ => by simp [dev, getBlocks]
  | row :: t, hr => by
    have ih := dev_blocks h C l hl c t fun a ha => hr a (List.mem_cons_of_mem _ ha)
    have hn : C / l * l ≤ row.length := by rw [hr row (by simp)]; exact Nat.div_mul_le_self C l
    have h1 := dev_groups h l hl c _ (pieces_equal l (C / l) row hn)
    have h2 := dev_pieces h l (C / l) row c hn
    have : getBlocks (row :: t) C l = (pieces l (C / l) row).map localMean ++ getBlocks t C l := by
      simp [getBlocks]
    rw [this, dev_append, List.flatten_cons, dev_append, mul_add]
    linarith

/-- specification: the (population) variance. -/
def variance (abs2 : K → R) (l : List K) : R := dev abs2 l (avg l) / (l.length : R)

/-- specification: averages of consecutive blocks of length `l` of every chain (the rest is dropped). -/
def blockMeans (rows : List (List K)) (C l : Nat) : List K :=
  rows.flatMap fun row => (List.range (C / l)).map fun i => avg ((row.drop (i * l)).take l)

theorem getBlocks_eq (rows : List (List K)) (C l : Nat) : getBlocks rows C l = blockMeans rows C l := by
  unfold getBlocks blockMeans pieces
  congr 1
  funext row
  rw [List.map_map]
  rfl

theorem var_single (abs2 : K → R) (l : List K) : var abs2 [l] 0 = variance abs2 l := by
  rw [C54_var abs2 _ _ (equal_one l) 0 (by simp)]
  simp [variance, dev]

theorem tau_bound (ts n l : Nat) (v V b : R) (hV : V ≠ 0) (h : ((ts : R) / (n : R)) * v / V < 2 * b + 1) :
    ltF (tauOf ts n v V) b = true := by
  rw [tauOf, fdiv, if_neg hV]
  simp only [Option.map_some, ltF, decide_eq_true_eq]
  linarith

/-- On one rank with all the chains. -/
theorem error_single {abs2 : K → R} (h : IsAbs2 abs2) (sqrt : R → R) (rows : List (List K)) (C b : Nat)
    (hM : rows ≠ []) (hC0 : 0 < C) (hb0 : 0 < b) (hC : Equal C rows)
    (hV : variance abs2 rows.flatten ≠ 0) (hb : b ≤ rows.length * C) :
    (statistics abs2 sqrt [rows] C b 0).error = some (sqrt
      (if b ≤ rows.length then variance abs2 (rows.map avg) / (rows.length : R)
       else variance abs2 (blockMeans rows C (max 1 (C / b))) /
        ((blockMeans rows C (max 1 (C / b))).length : R))) := by
  have hM0 : 0 < rows.length := List.length_pos_of_ne_nil hM
  have hN : rows.flatten.length = rows.length * C := flatten_length hC
  have hMR : (0 : R) < (rows.length : R) := by exact_mod_cast hM0
  have hCR : (0 : R) < (C : R) := by exact_mod_cast hC0
  have hD : 0 ≤ dev abs2 rows.flatten (avg rows.flatten) := dev_nonneg h _ _
  have hVdef : variance abs2 rows.flatten * ((rows.length : R) * (C : R)) =
      dev abs2 rows.flatten (avg rows.flatten) := by
    rw [variance, hN]; push_cast; field_simp
  have hVpos : 0 < variance abs2 rows.flatten := by
    refine lt_of_le_of_ne ?_ (Ne.symm hV)
    rw [variance]
    exact div_nonneg hD (Nat.cast_nonneg _)
  -- the chain means
  have hbv : variance abs2 (rows.map avg) ≤ variance abs2 rows.flatten := by
    have h1 : dev abs2 (rows.map avg) (avg (rows.map avg)) ≤ dev abs2 (rows.map avg) (avg rows.flatten) :=
      h.best _ _
    have h2 := dev_groups h C hC0 (avg rows.flatten) rows hC
    have h3 : (C : R) * dev abs2 (rows.map avg) (avg (rows.map avg)) ≤
        variance abs2 rows.flatten * ((rows.length : R) * (C : R)) := by
      rw [hVdef]; exact le_trans (mul_le_mul_of_nonneg_left h1 hCR.le) h2
    rw [variance, List.length_map, div_le_iff₀ hMR]
    nlinarith
  have hgood1 : ltF (tauOf (rows.length * C) rows.length (variance abs2 (rows.map avg))
      (variance abs2 rows.flatten)) (6 * (C : R)) = true := by
    apply tau_bound _ _ 1 _ _ _ hV
    have e : (((rows.length * C : Nat) : R) / (rows.length : R)) = (C : R) := by
      push_cast; field_simp
    rw [e, div_lt_iff₀ hVpos]
    have : (C : R) * variance abs2 (rows.map avg) ≤ (C : R) * variance abs2 rows.flatten :=
      mul_le_mul_of_nonneg_left hbv hCR.le
    nlinarith [mul_pos hCR hVpos]
  -- the blocks
  obtain ⟨l, hl⟩ : ∃ l, l = max 1 (C / b) := ⟨_, rfl⟩
  have hl0 : 0 < l := by rw [hl]; omega
  have hlC : l ≤ C := by
    rw [hl]; exact max_le hC0 (Nat.div_le_self C b)
  have hq0 : 0 < C / l := Nat.div_pos hlC hl0
  have hK : (blockMeans rows C l).length = rows.length * (C / l) := by
    unfold blockMeans
    exact flatMap_length_const _ _ _ (by intro a _; simp)
  have hKR : (0 : R) < ((rows.length * (C / l) : Nat) : R) := by
    exact_mod_cast Nat.mul_pos hM0 hq0
  have hlR : (0 : R) < (l : R) := by exact_mod_cast hl0
  have hblk : (l : R) * (variance abs2 (blockMeans rows C l) * ((rows.length * (C / l) : Nat) : R)) ≤
      variance abs2 rows.flatten * ((rows.length : R) * (C : R)) := by
    have h1 : dev abs2 (blockMeans rows C l) (avg (blockMeans rows C l)) ≤
        dev abs2 (blockMeans rows C l) (avg rows.flatten) := h.best _ _
    have h2 := dev_blocks h C l hl0 (avg rows.flatten) rows hC
    rw [getBlocks_eq] at h2
    rw [variance, hK, div_mul_cancel₀ _ hKR.ne', hVdef]
    exact le_trans (mul_le_mul_of_nonneg_left h1 hlR.le) h2
  have hgood2 : ltF (tauOf (rows.length * C) (rows.length * (C / l)) (variance abs2 (blockMeans rows C l))
      (variance abs2 rows.flatten)) (6 * (l : R)) = true := by
    apply tau_bound _ _ 1 _ _ _ hV
    rw [div_lt_iff₀ hVpos, div_mul_eq_mul_div, div_lt_iff₀ hKR]
    -- `C < 2 q l`
    have hCq : C < 2 * (C / l * l) := by
      have h1 := Nat.div_add_mod C l
      have h2 := Nat.mod_lt C hl0
      have h3 : l ≤ C / l * l := Nat.le_mul_of_pos_left l hq0
      have h4 : C / l * l = l * (C / l) := Nat.mul_comm _ _
      omega
    have hCq' : (C : R) < 2 * (((C / l : Nat) : R) * (l : R)) := by exact_mod_cast hCq
    have hq : (0 : R) < ((C / l : Nat) : R) := by exact_mod_cast hq0
    push_cast at hblk ⊢
    generalize ((C / l : Nat) : R) = q at *
    generalize variance abs2 (blockMeans rows C l) = v at *
    generalize variance abs2 rows.flatten = V at *
    generalize (rows.length : R) = M at *
    generalize (C : R) = c at *
    generalize (l : R) = x at *
    have hqx : 0 < q * x := mul_pos hq hlR
    have e1 : M * c * v * (q * x) ≤ V * M * (c * c) := by
      have := mul_le_mul_of_nonneg_right hblk hCR.le
      nlinarith
    have e2 : c * c < 4 * ((q * x) * (q * x)) := by nlinarith
    have e3 : V * M * (c * c) < V * M * (4 * ((q * x) * (q * x))) :=
      mul_lt_mul_of_pos_left e2 (mul_pos hVpos hMR)
    have e4 : 0 < V * M * q := mul_pos (mul_pos hVpos hMR) hq
    have e5 : 0 < V * M * q * (q * x) * x := mul_pos (mul_pos e4 hqx) hlR
    have e6 : 0 < V * M * q * (q * x) := mul_pos e4 hqx
    refine lt_of_mul_lt_mul_right ?_ hqx.le
    nlinarith
  have hb2 : ¬ b ≤ rows.length → b ≤ rows.length * (C / l) := by
    intro hnot
    rcases Nat.lt_or_ge C b with hlt | hge
    · have : l = 1 := by rw [hl, Nat.div_eq_of_lt hlt]; rfl
      rw [this, Nat.div_one]; exact hb
    · have h1 : 0 < C / b := Nat.div_pos hge hb0
      have h2 : l = C / b := by rw [hl]; omega
      have h3 : b ≤ C / l := by
        rw [h2, Nat.le_div_iff_mul_le h1]
        exact Nat.mul_div_le C b
      exact le_trans h3 (Nat.le_mul_of_pos_left _ hM0)
  have hmap : rows.map localMean = rows.map (avg : List K → K) := rfl
  unfold statistics
  simp only [List.map_cons, List.map_nil, List.length_cons, List.length_nil, Nat.zero_add, var_single,
    getBlocks_eq, totalSize, List.getD_cons_zero, Nat.mul_one, hmap, List.length_map, ← hl, hN, hK, hgood1,
    hgood2, Bool.true_and]
  by_cases hbM : b ≤ rows.length
  · simp [hbM]
  · simp [hbM, hb2 hbM]

/-- **Error estimate.** For at least `batch_size` samples whose variance is not zero the error of the mean
is available on every rank, for any splitting of the chains over the ranks: it is that of the chain means
if there are at least `batch_size` chains, and that of the block means otherwise. In particular the
conditions on the correlation time never fail. -/
theorem C81_error {abs2 : K → R} (h : IsAbs2 abs2) (sqrt : R → R) (shards : List (List (List K)))
    (m C b : Nat) (hm : Equal m shards) (hm0 : 0 < m) (hCs : ∀ rows ∈ shards, Equal C rows) (hC0 : 0 < C)
    (hb0 : 0 < b) (r : Nat) (hr : r < shards.length)
    (hV : variance abs2 shards.flatten.flatten ≠ 0) (hb : b ≤ shards.length * m * C) :
    (statistics abs2 sqrt shards C b r).error = some (sqrt
      (if b ≤ shards.length * m then variance abs2 (shards.flatten.map avg) / ((shards.length * m : Nat) : R)
       else variance abs2 (blockMeans shards.flatten C (max 1 (C / b))) /
        ((blockMeans shards.flatten C (max 1 (C / b))).length : R))) := by
  have hlen : shards.flatten.length = shards.length * m := flatten_length hm
  have hall : Equal C shards.flatten := by
    intro a ha
    rcases List.mem_flatten.1 ha with ⟨rows, hrows, har⟩
    exact hCs rows hrows a har
  rw [C54_statistics abs2 sqrt shards m C b hm hCs r hr, ← hlen]
  refine error_single h sqrt _ C b ?_ hC0 hb0 hall hV (by rw [hlen]; exact hb)
  intro h0
  have : 0 < shards.length * m := Nat.mul_pos (by omega) hm0
  rw [h0, List.length_nil] at hlen
  omega

/-- R̂ is `sqrt((N-1)/N + Var(chain means)/Var)` for more than one chain. -/
theorem C81_rhat (abs2 : K → R) (sqrt : R → R) (shards : List (List (List K)))
    (m C b : Nat) (hm : Equal m shards) (hCs : ∀ rows ∈ shards, Equal C rows)
    (r : Nat) (hr : r < shards.length) (hn : 1 < shards.length * m)
    (hV : variance abs2 shards.flatten.flatten ≠ 0) :
    (statistics abs2 sqrt shards C b r).rHat = some (sqrt (((C : R) - 1) / (C : R) +
      variance abs2 (shards.flatten.map avg) / variance abs2 shards.flatten.flatten)) := by
  have hlen : shards.flatten.length = shards.length * m := flatten_length hm
  have hmap : shards.flatten.map localMean = shards.flatten.map (avg : List K → K) := rfl
  rw [C54_statistics abs2 sqrt shards m C b hm hCs r hr]
  unfold statistics
  simp only [List.map_cons, List.map_nil, List.length_cons, List.length_nil, Nat.zero_add, var_single,
    totalSize, List.getD_cons_zero, Nat.mul_one, hmap, List.length_map, hlen, if_pos hn, fdiv, if_neg hV,
    Option.map_some]

/-- If the variance vanishes – every local value is the same, as for an eigenstate – the error, the
correlation time and R̂ are NaN, whatever the number of samples. -/
theorem C81_zero_variance (abs2 : K → R) (sqrt : R → R) (shards : List (List (List K)))
    (m C b : Nat) (hm : Equal m shards) (hCs : ∀ rows ∈ shards, Equal C rows)
    (r : Nat) (hr : r < shards.length) (hV : variance abs2 shards.flatten.flatten = 0) :
    (statistics abs2 sqrt shards C b r).error = none ∧ (statistics abs2 sqrt shards C b r).tau = none ∧
      (statistics abs2 sqrt shards C b r).rHat = none := by
  rw [C54_statistics abs2 sqrt shards m C b hm hCs r hr]
  unfold statistics
  simp [var_single, tauOf, fdiv, hV, ltF]

end error

/-- The full claim – with at least `batch_size` samples an error is available – is false: 32 chains of one
sample each, all equal. -/
theorem C126_zero_variance_refuted :
    ¬ ∀ (shards : List (List (List ℚ))) (m C b : Nat), Equal m shards → 0 < m →
      (∀ rows ∈ shards, Equal C rows) → 0 < C → 0 < b → b ≤ shards.length * m * C →
      ∀ r < shards.length, (statistics (fun x : ℚ => x * x) id shards C b r).error ≠ none := by
  intro h
  refine h [List.replicate 32 [1]] 32 1 32 ?_ (by decide) ?_ (by decide) (by decide) (by decide) 0 (by decide) ?_
  · intro a ha; simp at ha; rw [ha]; simp
  · intro a ha; rw [List.mem_singleton.1 ha]; intro b hb; rw [List.eq_of_mem_replicate hb]; rfl
  · refine (C81_zero_variance (fun x : ℚ => x * x) id [List.replicate 32 [1]] 32 1 32 ?_ ?_ 0 (by decide) ?_).1
    · intro a ha; simp at ha; rw [ha]; simp
    · intro a ha; rw [List.mem_singleton.1 ha]; intro b hb; rw [List.eq_of_mem_replicate hb]; rfl
    · simp [variance, dev, avg]
      norm_num

/-- two chains of two samples with `batch_size` 2: the error is that of the chain means. -/
example : (statistics (fun x : ℚ => x * x) id [[[1, 2]], [[3, 6]]] 2 2 1).error = some (9 / 8) := by
  rw [C81_error (isAbs2_sq (R := ℚ)) id [[[1, 2]], [[3, 6]]] 1 2 2 (by simp [Equal]) (by decide)
    (by simp [Equal]) (by decide) (by decide) 1 (by decide)
    (by simp [variance, dev, avg]; norm_num) (by decide)]
  simp [variance, dev, avg]
  norm_num

end Verif.Stats
