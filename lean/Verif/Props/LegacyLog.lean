import Verif.Model.LegacyLog
import Verif.Props.Stats
import Mathlib.Tactic.NormNum
import Mathlib.Tactic.Ring
import Mathlib.Tactic.FieldSimp
import Mathlib.Tactic.Linarith

/-! C185, C186: statistics, `estimate_expectations`, loggers and random numbers of netket/legacy, the old JSON logger and the tensorboard logger. -/

set_option linter.unusedSectionVars false
set_option linter.unusedVariables false

namespace Verif.LegacyLog
open Verif.Hilbert (Err)
open Verif.Stats (localMean tauOf ltF fdiv pieces Equal avg equal_map)

variable {K R : Type}

/-! ## Statistics -/

theorem size_flatten : ∀ shards : List (List K), totalSize shards = shards.flatten.length
  | [] => rfl
  | a :: t => by
    have := size_flatten t
    unfold totalSize at this ⊢
    simp only [List.map_cons, List.sum_cons, List.flatten_cons, List.length_append, this]

/-- C185: sums and sizes over the processes are those of all data, whatever the sizes of the shards. -/
theorem C185_sum_size [AddCommMonoid K] (shards : List (List K)) :
    sum shards = shards.flatten.sum ∧ totalSize shards = shards.flatten.length :=
  ⟨Stats.sum_flatten' shards, size_flatten shards⟩

/-- C185: for shards of the same size the mean is the average of all data, the variance the one of all data, and `subtract_mean` removes the average. -/
theorem C185_mean_var [Field K] [Field R] (abs2 : K → R) (L : Nat) (shards : List (List K)) (h : Equal L shards) (ddof : Nat) :
    mean shards = avg shards.flatten
    ∧ var abs2 shards ddof = (shards.flatten.map fun x => abs2 (x - avg shards.flatten)).sum / ((shards.flatten.length : R) - (ddof : R))
    ∧ (subtractMean shards).1.flatten = shards.flatten.map fun x => x - avg shards.flatten := by
  have hm : mean shards = avg shards.flatten := by
    rw [← Stats.C54_mean L shards h]
    unfold mean Stats.mean Stats.mpiMean Stats.mpiSum
    rw [List.length_map]
  refine ⟨hm, ?_, ?_⟩
  · unfold var
    rw [(C185_sum_size _).1, (C185_sum_size _).2, Stats.map_flatten', hm]
  · unfold subtractMean
    dsimp only
    rw [Stats.map_flatten', hm]

example := C185_mean_var (K := ℚ) (R := ℚ) (fun x => x * x) 3 [[1, 2, 3], [0, 1, 0]] (by simp [Equal]) 1

theorem var_eq [Field K] [Field R] (abs2 : K → R) (L : Nat) (shards : List (List K)) (h : Equal L shards) (r : Nat) (hr : r < shards.length) :
    var abs2 shards = Stats.var abs2 shards r 0 := by
  rw [(C185_mean_var abs2 L shards h 0).2.1, Stats.C54_var abs2 L shards h r hr]

theorem size_eq (L : Nat) (shards : List (List K)) (h : Equal L shards) (r : Nat) (hr : r < shards.length) :
    totalSize shards = Stats.totalSize shards.length (shards.getD r []) := by
  rw [size_flatten, Stats.C54_total_size L shards h r hr]

/-- C185: if every process holds `m` chains of length `C`, the legacy statistics are those of `netket.stats.statistics` for all the chains on one process. -/
theorem C185_statistics [Field K] [Field R] [LinearOrder R] (abs2 : K → R) (sqrt : R → R) (shards : List (List (List K))) (m C : Nat) (hm0 : 0 < m)
    (hm : Equal m shards) (hC : ∀ rows ∈ shards, Equal C rows) (r : Nat) (hr : r < shards.length) :
    statistics abs2 sqrt shards r = Stats.statistics abs2 sqrt [shards.flatten] C 32 0 := by
  rw [← Stats.C54_statistics abs2 sqrt shards m C 32 hm hC r hr]
  have hchain : ∀ rows ∈ shards, chainOf rows = C := by
    intro rows h
    have h1 := hm rows h
    unfold chainOf
    cases rows with
    | nil => simp at h1; omega
    | cons a t => exact hC _ h a (by simp)
  have hcr : chainOf (shards.getD r []) = C := by
    refine hchain _ ?_
    rw [List.getD, List.getElem?_eq_getElem hr]
    exact List.getElem_mem hr
  have hb : (shards.map fun rows => getBlocks rows (chainOf rows) (max 1 (chainOf rows / 32)))
      = shards.map fun rows => Stats.getBlocks rows C (max 1 (C / 32)) := by
    refine List.map_congr_left fun rows h => ?_
    rw [hchain rows h]
    rfl
  have e1 : Equal (m * C) (shards.map List.flatten) := by
    refine equal_map _ ?_ hm
    intro a ha hs
    rw [Stats.flatten_length (hC a hs), ha]
  have e2 : Equal m (shards.map fun rows => rows.map (localMean : List K → K)) :=
    equal_map _ (by intro a ha _; rw [List.length_map, ha]) hm
  have e3 : ∀ l : Nat, Equal (m * (C / l)) (shards.map fun rows => Stats.getBlocks rows C l) := by
    intro l
    refine equal_map _ ?_ hm
    intro a ha _
    rw [Stats.getBlocks, Stats.flatMap_length_const _ (C / l), ha]
    intro row _
    simp [pieces]
  have r1 : r < (shards.map List.flatten).length := by simpa using hr
  have r2 : r < (shards.map fun rows => rows.map (localMean : List K → K)).length := by simpa using hr
  have r3 : ∀ l : Nat, r < (shards.map fun rows => Stats.getBlocks rows C l).length := by
    intro l; simpa using hr
  have s1 := size_eq _ _ e1 r r1
  have s2 := size_eq _ _ e2 r r2
  have s3 := fun l => size_eq _ _ (e3 l) r (r3 l)
  simp only [List.length_map] at s1 s2 s3
  have hmean : mean (shards.map List.flatten) = Stats.mean (shards.map List.flatten) := by
    rw [(C185_mean_var (R := K) (fun x => x) _ _ e1 0).1, Stats.C54_mean _ _ e1]
  unfold statistics Stats.statistics
  simp only [hb, hcr, var_eq abs2 _ _ e1 r r1, var_eq abs2 _ _ e2 r r2, var_eq abs2 _ _ (e3 _) r (r3 _), s1, s2, s3, hmean]
  simp only [Bool.and_comm, max_comm]

example := C185_statistics (K := ℚ) (R := ℚ) (fun x => x * x) (fun x => x) [[[1, 2, 3], [0, 1, 0]], [[2, 2, 2], [1, 0, 5]]] 2 3 (by decide) (by simp [Equal])
  (by simp [Equal]) 1 (by decide)

/-- two processes with two chains of three samples each. -/
example : Equal 2 [[[1, 2, 3], [0, 1, 0]], [[2, 2, 2], [1, 0, (5 : ℚ)]]] ∧
    ∀ rows ∈ [[[1, 2, 3], [0, 1, 0]], [[2, 2, 2], [1, 0, (5 : ℚ)]]], Equal 3 rows := by
  constructor <;> simp [Equal]

/-- C185: `Stats` can be asked for every field by its own name and by the name used in the log files. -/
theorem C185_names :
    getItem "mean" = some .mean ∧ getItem "Mean" = some .mean ∧ getItem "variance" = some .variance ∧ getItem "Variance" = some .variance
    ∧ getItem "error_of_mean" = some .error ∧ getItem "Sigma" = some .error ∧ getItem "R_hat" = some .rHat ∧ getItem "R" = some .rHat
    ∧ getItem "tau_corr" = some .tau ∧ getItem "TauCorr" = some .tau := by
  refine ⟨?_, ?_, ?_, ?_, ?_, ?_, ?_, ?_, ?_, ?_⟩ <;> decide

/-- C186: shards of different sizes are accepted by `total_size` but the mean is not the average of the data. -/
theorem C186_unequal_refuted : ¬ ∀ shards : List (List ℚ), (∀ a ∈ shards, a ≠ []) → mean shards = avg shards.flatten := by
  intro h
  have := h [[1], [0, 0]] (by simp)
  simp [mean, avg, localMean] at this

/-- C186: `subtract_mean` changes its argument. -/
theorem C186_subtract_mean_refuted : ¬ ∀ shards : List (List ℚ), (subtractMean shards).2 = shards := by
  intro h
  have := h [[1, 3]]
  simp [subtractMean, mean, localMean] at this
  norm_num at this

/-- C186: `Stats` is not like a dictionary: every other name gives `None` instead of a `KeyError`, and the imaginary part of the mean is not in the JSON
    output. -/
theorem C186_stats_refuted :
    (∀ name : String, name ∉ ["mean", "Mean", "variance", "Variance", "error_of_mean", "Sigma", "R_hat", "R", "tau_corr", "TauCorr"] → getItem name = none)
    ∧ ¬ Function.Injective jsonMean := by
  refine ⟨fun name h => ?_, fun h => ?_⟩
  · simp only [List.mem_cons, List.not_mem_nil, or_false, not_or] at h
    obtain ⟨h1, h2, h3, h4, h5, h6, h7, h8, h9, h10⟩ := h
    unfold getItem
    simp [*]
  · have := @h 0 Complex.I (by simp [jsonMean])
    have := congrArg Complex.im this
    simp at this

/-- C186, the part that holds: names which are not fields are an `AttributeError` with `getattr` of the new `Stats`, and `to_dict` works when the fields are arrays, as
    `statistics` makes them; a `Stats` built from python numbers (the defaults) has none. -/
theorem C186_stats_partial (name : String) (h : getItem name = none) (a b c d e : Val) :
    getAttr name = .error .attributeError ∧ (toDict a b c d e = .ok () ↔ a = .array ∧ b = .array ∧ c = .array ∧ d = .array ∧ e = .array)
    ∧ (toDict a b c d e = .error .attributeError ↔ .number ∈ [a, b, c, d, e]) := by
  refine ⟨by unfold getAttr; rw [h], ?_⟩
  cases a <;> cases b <;> cases c <;> cases d <;> cases e <;> simp [toDict]

example := C186_stats_partial "Median" (by decide) .array .array .array .number .array

example : getItem "Median" = none := by decide

/-! ## `estimate_expectations` -/

/-- C185: the mean and the variance estimated from samples of all processes. -/
theorem C185_estimate [Field K] [Field R] [LinearOrder R] (abs2 : K → R) (sqrt : R → R) (N : Nat) (lvs : List (List K)) (h : Equal N lvs) (r : Nat)
    (hr : r < lvs.length) :
    (estStats abs2 sqrt lvs r).mean = avg lvs.flatten
    ∧ (estStats abs2 sqrt lvs r).variance = (lvs.flatten.map fun x => abs2 (x - avg lvs.flatten)).sum / (lvs.flatten.length : R) := by
  have e : (lvs.map fun l => [l]).map List.flatten = lvs := by
    rw [List.map_map]
    conv_rhs => rw [← List.map_id lvs]
    refine List.map_congr_left fun l _ => ?_
    simp
  obtain ⟨h1, h2, _⟩ := C185_mean_var abs2 N lvs h 0
  refine ⟨?_, ?_⟩
  · unfold estStats statistics
    dsimp only
    rw [e, h1]
  · unfold estStats statistics
    dsimp only
    rw [e, h2]
    simp

example := C185_estimate (K := ℚ) (R := ℚ) (fun x => x * x) (fun x => x) 3 [[1, 2, 3], [0, 1, 0]] (by simp [Equal]) 1 (by decide)

/-- the covariance of log-derivative and local value over samples. -/
noncomputable def cov {P : Type} (r : List (ℂ × (P → ℂ))) (k : P) : ℂ :=
  avg (r.map fun x => star (x.2 k) * x.1) - avg (r.map fun x => star (x.2 k)) * avg (r.map fun x => x.1)

theorem grad_sum {P : Type} (r : List (ℂ × (P → ℂ))) (hr : r ≠ []) (c : ℂ) (k : P) :
    (r.map fun x => star (x.2 k) * ((x.1 - avg (r.map fun x => x.1)) / c)).sum = (r.length : ℂ) * cov r k / c := by
  have h0 : (r.length : ℂ) ≠ 0 := by simpa using hr
  have e : ∀ (m : ℂ) (l : List (ℂ × (P → ℂ))), (l.map fun x => star (x.2 k) * ((x.1 - m) / c)).sum
      = ((l.map fun x => star (x.2 k) * x.1).sum - (l.map fun x => star (x.2 k)).sum * m) / c := by
    intro m l
    induction l with
    | nil => simp
    | cons a t ih => simp only [List.map_cons, List.sum_cons, ih]; ring
  rw [e]
  unfold cov avg
  simp only [List.length_map]
  field_simp

/-- C185: on one process with one chain the gradient is the covariance of local values and log-derivatives. -/
theorem C185_gradient {P : Type} (r : List (ℂ × (P → ℂ))) (hr : r ≠ []) (k : P) : estGrad r.length [r] 0 k = cov r k := by
  have hm : mean [r.map fun x => x.1] = avg (r.map fun x => x.1) := by
    simp [mean, localMean, avg]
  have h0 : (r.length : ℂ) ≠ 0 := by simpa using hr
  unfold estGrad
  simp only [List.map_cons, List.map_nil, hm, List.getD_cons_zero]
  rw [grad_sum r hr, mul_div_cancel_left₀ _ h0]

example := C185_gradient [((1 : ℂ), fun _ : Unit => (1 : ℂ)), (0, fun _ => 0)] (by simp) ()

example : cov [((1 : ℂ), fun _ : Unit => (1 : ℂ)), (0, fun _ => 0)] () = 1 / 4 := by
  simp [cov, avg]
  norm_num

/-- C186: with `c` chains there are `c · n_samples` samples and the gradient is `c` times too large. -/
theorem C186_gradient_refuted {P : Type} (n c : Nat) (hn : 0 < n) (hc : 0 < c) (r : List (ℂ × (P → ℂ))) (hr : r.length = n * c) (k : P) :
    estGrad n [r] 0 k = c * cov r k := by
  have hm : mean [r.map fun x => x.1] = avg (r.map fun x => x.1) := by
    simp [mean, localMean, avg]
  have h1 : (n : ℂ) ≠ 0 := by exact_mod_cast hn.ne'
  have hne : r ≠ [] := by
    intro h
    rw [h] at hr
    simp at hr
    omega
  unfold estGrad
  simp only [List.map_cons, List.map_nil, hm, List.getD_cons_zero]
  rw [grad_sum r hne, hr]
  push_cast
  field_simp

example := C186_gradient_refuted 1 2 (by decide) (by decide) [((1 : ℂ), fun _ : Unit => (1 : ℂ)), (0, fun _ => 0)] rfl ()

/-- C186: with several processes every process returns another gradient, of its own samples. -/
theorem C186_processes_refuted : ¬ ∀ (rs : List (List (ℂ × (Unit → ℂ)))) (n : Nat), Equal n rs → ∀ q < rs.length, ∀ q' < rs.length,
    estGrad n rs q () = estGrad n rs q' () := by
  intro h
  have := h [[(1, fun _ => 1)], [(0, fun _ => 0)]] 1 (by simp [Equal]) 0 (by simp) 1 (by simp)
  simp [estGrad, mean, localMean] at this
  norm_num at this

/-- C186: the samples of all chains are one time series: on one process there is no R̂, whatever the number of chains. -/
theorem C186_r_hat_refuted [Field K] [Field R] [LinearOrder R] (abs2 : K → R) (sqrt : R → R) (lvs : List K) : (estStats abs2 sqrt [lvs] 0).rHat = none := by
  unfold estStats statistics
  dsimp only
  rw [if_neg]
  simp [totalSize]

/-- C186: `n_discard=0` discards samples; all other numbers are used as given. -/
theorem C186_discard_refuted (n : Nat) (hn : 10 ≤ n) : discard (some 0) n ≠ 0 ∧ discard none n = n / 10 ∧ ∀ m, m ≠ 0 → discard (some m) n = m := by
  refine ⟨?_, rfl, fun m hm => by simp [discard, hm]⟩
  simp only [discard, if_true]
  omega

example := C186_discard_refuted 100 (by decide)

/-! ## JSON logger -/

/-- what a call should log. -/
def entry (heap : Nat → Item) (c : Int × Nat × Nat) : Item := ⟨(heap c.2.1).data, some c.1⟩

/-- the number of entries on file after `n` calls, one flush in every `w` calls. -/
def onFile (w n : Nat) : Nat := if n = 0 then 0 else (n - 1) / w * w + 1

theorem onFile_succ (w n : Nat) (hw : 0 < w) : onFile w (n + 1) = if n % w = 0 then n + 1 else onFile w n := by
  have h1 : n / w * w + n % w = n := by rw [Nat.mul_comm]; exact Nat.div_add_mod n w
  unfold onFile
  rw [if_neg (by omega), Nat.add_sub_cancel]
  split_ifs with h h2
  · omega
  · subst h2; simp at h
  · have h3 : (n - 1) / w = n / w := by
      apply Nat.div_eq_of_lt_le
      · have := Nat.pos_of_ne_zero h
        omega
      · have := Nat.mod_lt n hw
        rw [Nat.succ_mul]
        omega
    rw [h3]

/-- the state after a call which raises nothing. -/
def after (s : St) (step : Int) (a machine : Nat) (w p : Bool) : St :=
  let h := (store s step a).heap
  let o := (store s step a).out
  { out := o, writeEvery := s.writeEvery, saveEvery := s.saveEvery, oldStep := step, nW := (if w then 0 else s.nW) + 1, nP := (if p then 0 else s.nP) + 1, heap := h,
    files := ⟨if w then some (some (o.map (value h))) else s.files.log, if p then some machine else s.files.wf⟩ }

theorem call_ok (enc : Nat → Bool) (s : St) (w p : Nat) (hw : s.writeEvery = (w : Int)) (hp : s.saveEvery = (p : Int)) (hw0 : 0 < w) (hp0 : 0 < p)
    (step : Int) (hs : step ≠ s.oldStep - 1) (a machine : Nat)
    (henc : ∀ i ∈ (store s step a).out.map (value (store s step a).heap), enc i.data = true) :
    call enc s step a machine = (after s step a machine (decide (s.nW % w = 0)) (decide (s.nP % p = 0)), none) := by
  have e1 : ∀ (n v : Nat), 0 < v → wants n (v : Int) step s.oldStep = .ok (decide (n % v = 0)) := by
    intro n v hv
    unfold wants
    rw [if_neg (by omega)]
    congr 1
    have : decide (step = s.oldStep - 1) = false := by simpa using hs
    rw [this, Bool.or_false]
    congr 1
    have : (n : Int) % (v : Int) = ((n % v : Nat) : Int) := by simp
    rw [this]
    norm_cast
  have e2 : (store s step a).writeEvery = (w : Int) := hw
  have e3 : (store s step a).oldStep = s.oldStep := rfl
  have e4 : (store s step a).nW = s.nW := rfl
  unfold call
  dsimp only
  rw [e2, e3, e4, e1 _ _ hw0]
  by_cases h : s.nW % w = 0
  · have hall : (((store s step a).out.map (value (store s step a).heap)).all fun i => enc i.data) = true := List.all_eq_true.2 henc
    simp only [h, decide_true]
    unfold flushLog
    dsimp only
    rw [if_pos hall]
    dsimp only
    unfold finish
    dsimp only
    have : (store s step a).saveEvery = (p : Int) := hp
    rw [this, e3, show (store s step a).nP = s.nP from rfl, e1 _ _ hp0]
    by_cases h2 : s.nP % p = 0 <;> simp [h2, after, flushParams, store, hp]
  · simp only [h, decide_false]
    unfold finish
    dsimp only
    have : (store s step a).saveEvery = (p : Int) := hp
    rw [this, e3, show (store s step a).nP = s.nP from rfl, e1 _ _ hp0]
    by_cases h2 : s.nP % p = 0 <;> simp [h2, after, flushParams, store, hp]

theorem run_snoc (enc : Nat → Bool) : ∀ (cs : List (Int × Nat × Nat)) (s s' : St) (c : Int × Nat × Nat), run enc s cs = (s', none) →
    run enc s (cs ++ [c]) = call enc s' c.1 c.2.1 c.2.2
  | [], s, s', c, h => by
    simp only [run, Prod.mk.injEq, and_true] at h
    subst h
    obtain ⟨step, a, m⟩ := c
    simp only [List.nil_append, run]
    rcases hc : call enc s step a m with ⟨t, e⟩
    cases e <;> rfl
  | (step, a, m) :: cs, s, s', c, h => by
    simp only [run, List.cons_append] at h ⊢
    rcases hc : call enc s step a m with ⟨t, e⟩
    rw [hc] at h
    cases e with
    | none =>
      dsimp only at h ⊢
      exact run_snoc enc cs t s' c h
    | some e => simp at h

/-- C185: a run of calls with steps which do not go back, with dictionaries of its own for every call and data which can be encoded: nothing is raised, the file holds the
    entries found at the start (mode "append") followed by those of the calls up to the last flush, which is at every `w`-th call beginning with the first one; the
    parameters likewise; and everything is kept for the next flush. -/
theorem C185_json_run (enc : Nat → Bool) (mode : String) (w p : Nat) (hw : 0 < w) (hp : 0 < p) (heap : Nat → Item) (files : Files) (s0 : St)
    (hmk : mk mode (p : Int) (w : Int) heap files = .ok s0) (old : List Item) (hold : s0.out = old.map .old) (henc0 : ∀ i ∈ old, enc i.data = true)
    (cs : List (Int × Nat × Nat)) (hmono : (cs.map fun c => c.1).Pairwise (· ≤ ·)) (hpos : ∀ c ∈ cs, 0 ≤ c.1) (hnd : (cs.map fun c => c.2.1).Nodup)
    (henc : ∀ c ∈ cs, enc (heap c.2.1).data = true) :
    ∃ s, run enc s0 cs = (s, none)
      ∧ s.out.map (value s.heap) = old ++ cs.map (entry heap)
      ∧ s.files.log = (if cs = [] then files.log else some (some (old ++ (cs.map (entry heap)).take (onFile w cs.length))))
      ∧ s.files.wf = (if cs = [] then files.wf else cs[onFile p cs.length - 1]?.map fun c => c.2.2)
      ∧ (∀ a, a ∉ cs.map (fun c => c.2.1) → s.heap a = heap a) := by
  have hs0 : s0.writeEvery = w ∧ s0.saveEvery = p ∧ s0.oldStep = 0 ∧ s0.nW = 0 ∧ s0.nP = 0 ∧ s0.heap = heap ∧ s0.files = files := by
    unfold mk at hmk
    cases hm : parseMode mode with
    | error e => rw [hm] at hmk; simp at hmk
    | ok m =>
      rw [hm] at hmk
      dsimp only at hmk
      split at hmk
      · simp at hmk
      · simp only [Except.ok.injEq] at hmk
        subst hmk
        exact ⟨rfl, rfl, rfl, rfl, rfl, rfl, rfl⟩
  suffices h : ∃ s, run enc s0 cs = (s, none)
      ∧ s.out = old.map Rec.old ++ cs.map (fun c => Rec.ref c.2.1)
      ∧ (∀ c ∈ cs, s.heap c.2.1 = entry heap c) ∧ (∀ a, a ∉ cs.map (fun c => c.2.1) → s.heap a = heap a)
      ∧ s.files.log = (if cs = [] then files.log else some (some (old ++ (cs.map (entry heap)).take (onFile w cs.length))))
      ∧ s.files.wf = (if cs = [] then files.wf else cs[onFile p cs.length - 1]?.map fun c => c.2.2)
      ∧ s.writeEvery = w ∧ s.saveEvery = p ∧ s.nW % w = cs.length % w ∧ s.nP % p = cs.length % p
      ∧ (s.oldStep = 0 ∨ ∃ c ∈ cs, s.oldStep = c.1) by
    obtain ⟨s, h1, h2, h3, h4, h5, h6, _⟩ := h
    refine ⟨s, h1, ?_, h5, h6, h4⟩
    rw [h2, List.map_append, List.map_map, List.map_map]
    congr 1
    · conv_rhs => rw [← List.map_id old]
      exact List.map_congr_left fun i _ => rfl
    · exact List.map_congr_left fun c hc => h3 c hc
  induction cs using List.reverseRecOn with
  | nil =>
    obtain ⟨a1, a2, a3, a4, a5, a6, a7⟩ := hs0
    exact ⟨s0, rfl, by simp [hold], by simp, fun a _ => by rw [a6], by simp [a7], by simp [a7], a1, a2, by simp [a4], by simp [a5], Or.inl a3⟩
  | append_singleton cs c ih =>
    simp only [List.map_append, List.map_cons, List.map_nil] at hmono hnd
    obtain ⟨m1, m2, m3⟩ := List.pairwise_append.1 hmono
    obtain ⟨n1, n2, n3⟩ := List.nodup_append.1 hnd
    obtain ⟨s, i1, i2, i3, i4, i5, i6, i7, i8, i9, i10, i11⟩ := ih m1 (fun d hd => hpos d (by simp [hd])) n1 (fun d hd => henc d (by simp [hd]))
    have hfresh : ∀ d ∈ cs, d.2.1 ≠ c.2.1 := fun d hd => n3 _ (List.mem_map.2 ⟨d, hd, rfl⟩) _ (by simp)
    have hc0 : s.heap c.2.1 = heap c.2.1 := i4 _ fun h => by
      obtain ⟨d, hd, he⟩ := List.mem_map.1 h
      exact hfresh d hd he
    have hstep : c.1 ≠ s.oldStep - 1 := by
      have hc1 := hpos c (by simp)
      rcases i11 with h | ⟨d, hd, h⟩
      · omega
      · have := m3 d.1 (List.mem_map.2 ⟨d, hd, rfl⟩) c.1 (by simp)
        omega
    have hheap : (store s c.1 c.2.1).heap c.2.1 = entry heap c := by
      simp only [store, Function.update_self, hc0]
      rfl
    have hheap' : ∀ a, a ≠ c.2.1 → (store s c.1 c.2.1).heap a = s.heap a := fun a ha => by
      simp only [store]
      rw [Function.update_of_ne ha]
    have hvals : (store s c.1 c.2.1).out.map (value (store s c.1 c.2.1).heap) = old ++ (cs.map (entry heap) ++ [entry heap c]) := by
      have : (store s c.1 c.2.1).out = old.map Rec.old ++ cs.map (fun c => Rec.ref c.2.1) ++ [Rec.ref c.2.1] := by
        simp [store, i2]
      rw [this, List.map_append, List.map_append, List.map_map, List.map_map, List.append_assoc]
      congr 1
      · conv_rhs => rw [← List.map_id old]
        exact List.map_congr_left fun i _ => rfl
      · congr 1
        · refine List.map_congr_left fun d hd => ?_
          change (store s c.1 c.2.1).heap d.2.1 = _
          rw [hheap' _ (hfresh d hd), i3 d hd]
        · simp only [List.map_cons, List.map_nil]
          congr 1
    have hcall := call_ok enc s w p i7 i8 hw hp c.1 hstep c.2.1 c.2.2 (by
      rw [hvals]
      intro i hi
      rcases List.mem_append.1 hi with h | h
      · exact henc0 i h
      · rcases List.mem_append.1 h with h | h
        · obtain ⟨d, hd, rfl⟩ := List.mem_map.1 h
          exact henc d (by simp [hd])
        · simp only [List.mem_singleton] at h
          subst h
          exact henc c (by simp))
    refine ⟨_, (run_snoc enc cs s0 s c i1).trans hcall, ?_, ?_, ?_, ?_, ?_, i7, i8, ?_, ?_, Or.inr ⟨c, by simp, rfl⟩⟩
    · simp [after, store, i2]
    · intro d hd
      rcases List.mem_append.1 hd with h | h
      · change (store s c.1 c.2.1).heap d.2.1 = _
        rw [hheap' _ (hfresh d h), i3 d h]
      · simp only [List.mem_singleton] at h
        subst h
        exact hheap
    · intro a ha
      simp only [List.map_append, List.mem_append, not_or, List.map_cons, List.map_nil, List.mem_singleton] at ha
      change (store s c.1 c.2.1).heap a = _
      rw [hheap' _ ha.2, i4 a ha.1]
    · rw [if_neg (by simp)]
      simp only [after, hvals]
      rw [i9, List.length_append, List.length_singleton, onFile_succ w _ hw]
      by_cases h : cs.length % w = 0
      · simp only [h, decide_true, if_true]
        congr 3
        rw [List.map_append, List.map_cons, List.map_nil, List.take_of_length_le (by simp)]
      · simp only [h, decide_false, if_false, Bool.false_eq_true]
        have hne : cs ≠ [] := by
          intro h2
          rw [h2] at h
          simp at h
        rw [i5, if_neg hne, List.map_append, List.take_append_of_le_length]
        have hl : 0 < cs.length := List.length_pos_iff.2 hne
        rw [List.length_map]
        unfold onFile
        rw [if_neg (by omega)]
        have := Nat.div_mul_le_self (cs.length - 1) w
        omega
    · rw [if_neg (by simp)]
      simp only [after]
      rw [i10, List.length_append, List.length_singleton, onFile_succ p _ hp]
      by_cases h : cs.length % p = 0
      · simp only [h, decide_true, if_true]
        simp
      · simp only [h, decide_false, if_false, Bool.false_eq_true]
        have hne : cs ≠ [] := by
          intro h2
          rw [h2] at h
          simp at h
        have hl : 0 < cs.length := List.length_pos_iff.2 hne
        have hlt : onFile p cs.length - 1 < cs.length := by
          unfold onFile
          rw [if_neg (by omega)]
          have := Nat.div_mul_le_self (cs.length - 1) p
          omega
        rw [i6, if_neg hne, List.getElem?_append_left hlt]
    · simp only [after]
      rw [List.length_append, List.length_singleton, i9]
      by_cases h : cs.length % w = 0
      · simp only [h, decide_true, if_true]
        rw [Nat.add_mod cs.length 1 w, h]
        simp
      · simp only [h, decide_false, if_false, Bool.false_eq_true]
        rw [Nat.add_mod, i9, ← Nat.add_mod]
    · simp only [after]
      rw [List.length_append, List.length_singleton, i10]
      by_cases h : cs.length % p = 0
      · simp only [h, decide_true, if_true]
        rw [Nat.add_mod cs.length 1 p, h]
        simp
      · simp only [h, decide_false, if_false, Bool.false_eq_true]
        rw [Nat.add_mod, i10, ← Nat.add_mod]

example := C185_json_run (fun _ => true) "a" 2 1 (by decide) (by decide) (fun a => ⟨a, none⟩) ⟨some (some [⟨7, some 3⟩]), none⟩ _ rfl [⟨7, some 3⟩] rfl (by simp)
  [(4, 0, 5), (5, 1, 6), (5, 2, 6)] (by decide) (by decide) (by decide) (by simp)

/-- C185: less than `w` entries are missing on file, and none after the first call. -/
theorem C185_json_lag (w n : Nat) (hw : 0 < w) (hn : 0 < n) : 0 < onFile w n ∧ onFile w n ≤ n ∧ n - onFile w n < w := by
  unfold onFile
  rw [if_neg (by omega)]
  have h1 := Nat.div_add_mod (n - 1) w
  have h2 := Nat.mod_lt (n - 1) hw
  rw [Nat.mul_comm] at h1
  omega

example := C185_json_lag 10 37 (by decide) (by decide)

/-- C185: `flush` writes everything, and the parameters if a machine is given. -/
theorem C185_json_flush (enc : Nat → Bool) (s : St) (h : ∀ i ∈ s.out.map (value s.heap), enc i.data = true) (machine : Option Nat) :
    ∃ s', flush enc s machine = (s', none) ∧ s'.files = ⟨some (some (s.out.map (value s.heap))), machine.or s.files.wf⟩ ∧ s'.out = s.out ∧ s'.heap = s.heap
      ∧ s'.nW = 0 ∧ s'.oldStep = s.oldStep := by
  have hall : ((s.out.map (value s.heap)).all fun i => enc i.data) = true := List.all_eq_true.2 h
  unfold flush flushLog
  dsimp only
  rw [if_pos hall]
  cases machine with
  | none => exact ⟨_, rfl, rfl, rfl, rfl, rfl, rfl⟩
  | some m => exact ⟨_, rfl, rfl, rfl, rfl, rfl, rfl⟩

example := C185_json_flush (fun d => d < 9) ⟨[.old ⟨7, some 3⟩, .ref 0], 2, 1, 4, 1, 0, fun a => ⟨a, some 4⟩, ⟨none, none⟩⟩ (by simp [value]) (some 5)

/-- C185: the constructor: "write" starts empty whatever files exist, "append" with the content of the log file if there is one, "fail" only if no file exists; the
    parameters alone cannot be appended to. Other modes are a `ValueError`. -/
theorem C185_json_modes (p w : Int) (heap : Nat → Item) (files : Files) (mode : String) :
    (mode = "w" ∨ mode = "write" → mk mode p w heap files = .ok ⟨[], w, p, 0, 0, 0, heap, files⟩)
    ∧ (mode = "a" ∨ mode = "append" → mk mode p w heap files = match files.log, files.wf with
        | some (some l), _ => .ok ⟨l.map .old, w, p, 0, 0, 0, heap, files⟩
        | some none, _ => .error .valueError
        | none, some _ => .error .valueError
        | none, none => .ok ⟨[], w, p, 0, 0, 0, heap, files⟩)
    ∧ (mode = "x" ∨ mode = "fail" → mk mode p w heap files = if files = ⟨none, none⟩ then .ok ⟨[], w, p, 0, 0, 0, heap, files⟩ else .error .valueError)
    ∧ (mode ∉ ["w", "write", "a", "append", "x", "fail"] → mk mode p w heap files = .error .valueError) := by
  obtain ⟨log, wf⟩ := files
  refine ⟨?_, ?_, ?_, ?_⟩
  · rintro (rfl | rfl)
    · have : parseMode "w" = .ok .write := by decide
      unfold mk; rw [this]; simp
    · have : parseMode "write" = .ok .write := by decide
      unfold mk; rw [this]; simp
  · have key : ∀ m, parseMode m = .ok .append → mk m p w heap ⟨log, wf⟩ = match log, wf with
        | some (some l), _ => .ok ⟨l.map .old, w, p, 0, 0, 0, heap, ⟨log, wf⟩⟩
        | some none, _ => .error .valueError
        | none, some _ => .error .valueError
        | none, none => .ok ⟨[], w, p, 0, 0, 0, heap, ⟨log, wf⟩⟩ := by
      intro m hm
      unfold mk
      rw [hm]
      rcases log with _ | _ | l <;> rcases wf with _ | v <;> simp
    rintro (rfl | rfl)
    · exact key _ (by decide)
    · exact key _ (by decide)
  · have key : ∀ m, parseMode m = .ok .fail → mk m p w heap ⟨log, wf⟩
        = if (⟨log, wf⟩ : Files) = ⟨none, none⟩ then .ok ⟨[], w, p, 0, 0, 0, heap, ⟨log, wf⟩⟩ else .error .valueError := by
      intro m hm
      unfold mk
      rw [hm]
      rcases log with _ | _ | l <;> rcases wf with _ | v <;> simp
    rintro (rfl | rfl)
    · exact key _ (by decide)
    · exact key _ (by decide)
  · intro h
    simp only [List.mem_cons, List.not_mem_nil, or_false, not_or] at h
    obtain ⟨h1, h2, h3, h4, h5, h6⟩ := h
    have : parseMode mode = .error .valueError := by
      unfold parseMode
      simp [*]
    unfold mk
    rw [this]

/-- three calls appended to a file with one entry, every second one written: the hypotheses of `C185_json_run`. -/
example : ∃ s0, mk "a" 1 2 (fun a => ⟨a, none⟩) ⟨some (some [⟨7, some 3⟩]), none⟩ = .ok s0 ∧ s0.out = [Item.mk 7 (some 3)].map .old
    ∧ ([(4, 0, 5), (5, 1, 6), (5, 2, 6)].map fun c : Int × Nat × Nat => c.1).Pairwise (· ≤ ·)
    ∧ ([(4, 0, 5), (5, 1, 6), (5, 2, 6)].map fun c : Int × Nat × Nat => c.2.1).Nodup ∧ onFile 2 3 = 3 ∧ onFile 2 2 = 1 := by
  refine ⟨_, rfl, rfl, ?_, by decide, by decide, by decide⟩
  decide

/-- C186: the file is emptied before the data are encoded: data which cannot be encoded destroy what was on file, and the next flush too, as the entry stays. -/
theorem C186_json_lost_refuted (enc : Nat → Bool) (s : St) (i : Item) (hi : i ∈ s.out.map (value s.heap)) (h : enc i.data = false) :
    (flushLog enc s).1.files.log = some none ∧ (flushLog enc s).2 = some .typeError ∧ (flushLog enc s).1.out = s.out := by
  have hall : ¬ ((s.out.map (value s.heap)).all fun i => enc i.data) = true := by
    rw [List.all_eq_true]
    intro hh
    have := hh i hi
    rw [h] at this
    simp at this
  unfold flushLog
  dsimp only
  rw [if_neg hall]
  exact ⟨rfl, rfl, rfl⟩

example := C186_json_lost_refuted (fun d => d < 7) ⟨[.old ⟨7, some 3⟩, .ref 0], 2, 1, 4, 1, 0, fun a => ⟨a, some 4⟩, ⟨none, none⟩⟩ ⟨7, some 3⟩ (by simp [value]) (by simp)

/-- C186: the caller's dictionary is changed, and a dictionary which is used for two calls is logged twice with the last step. -/
theorem C186_json_aliasing_refuted (enc : Nat → Bool) (henc : ∀ d, enc d = true) (heap : Nat → Item) (a m : Nat) (i j : Int) (hj : j ≠ i - 1) (hi : i ≠ -1) :
    ∃ s0 s, mk "write" 1 1 heap ⟨none, none⟩ = .ok s0 ∧ run enc s0 [(i, a, m), (j, a, m)] = (s, none)
      ∧ s.files.log = some (some [⟨(heap a).data, some j⟩, ⟨(heap a).data, some j⟩]) ∧ (s.heap a).iteration = some j := by
  refine ⟨⟨[], 1, 1, 0, 0, 0, heap, ⟨none, none⟩⟩,
    after (after ⟨[], 1, 1, 0, 0, 0, heap, ⟨none, none⟩⟩ i a m true true) j a m true true,
    by simp [mk, parseMode], ?_, ?_⟩
  · have h1 := call_ok enc ⟨[], 1, 1, 0, 0, 0, heap, ⟨none, none⟩⟩ 1 1 rfl rfl (by omega) (by omega) i (by simpa using hi) a m (fun _ _ => henc _)
    simp only [Nat.zero_mod, decide_true] at h1
    simp only [run, h1]
    have h2 := call_ok enc (after ⟨[], 1, 1, 0, 0, 0, heap, ⟨none, none⟩⟩ i a m true true) 1 1 rfl rfl (by omega) (by omega) j
      (by simpa [after] using hj) a m (fun _ _ => henc _)
    simp only [h2]
    simp [after]
  · constructor <;> simp [after, store, value]

example := C186_json_aliasing_refuted (fun _ => true) (fun _ => rfl) (fun a => ⟨a, none⟩) 3 5 4 5 (by decide) (by decide)

/-- C186: `write_every=0` is a `ZeroDivisionError` in the first call, after the entry has been stored. -/
theorem C186_json_zero_refuted (enc : Nat → Bool) (s : St) (h : s.writeEvery = 0) (step : Int) (a m : Nat) :
    (call enc s step a m).2 = some .zeroDivision ∧ (call enc s step a m).1.out = s.out ++ [.ref a] := by
  have : (store s step a).writeEvery = 0 := h
  unfold call
  dsimp only
  rw [this]
  simp [wants, store]

example := C186_json_zero_refuted (fun _ => true) ⟨[.old ⟨7, some 3⟩], 0, 1, 4, 1, 0, fun a => ⟨a, some 4⟩, ⟨none, none⟩⟩ rfl 5 1 2

/-- C186: the old logger writes the real part of complex numbers only, and refuses matrices. -/
theorem C186_json_complex_refuted : (∀ z : ℂ, encDefault (.cplx z) = .ok (.real z.re)) ∧ ∀ n, 2 ≤ n →
    encDefault (.ndarray n) = .error .typeError ∧ encDefault (.device n) = .error .typeError := by
  refine ⟨fun z => rfl, fun n hn => ?_⟩
  unfold encDefault
  dsimp only
  rw [if_neg (by omega), if_neg (by omega)]
  exact ⟨rfl, rfl⟩

/-- C186, the part that holds: statistics, scalars and vectors are encoded. -/
theorem C186_json_default_partial (v n : Nat) (hn : n ≤ 1) :
    encDefault (.toJson v) = .ok (.dict v) ∧ (∃ e, encDefault (.ndarray n) = .ok e) ∧ ∃ e, encDefault (.device n) = .ok e := by
  have : n = 0 ∨ n = 1 := by omega
  rcases this with rfl | rfl <;> exact ⟨rfl, ⟨_, rfl⟩, ⟨_, rfl⟩⟩

example := C186_json_default_partial 3 1 (by decide)

/-! ## Tensorboard -/

/-- number `v` is at path `q` of a tree: keys of dictionaries, indices of lists and tuples, "re" and "im". -/
inductive At : Tree → List String → Nat → Prop
  | number (v : Nat) : At (.number v) [] v
  | re (x y : Nat) : At (.cplx x y) ["re"] x
  | im (x y : Nat) : At (.cplx x y) ["im"] y
  | list (l : List Tree) (i : Nat) (t : Tree) (q : List String) (v : Nat) : l[i]? = some t → At t q v → At (.list l) (toString i :: q) v
  | tuple (l : List Tree) (i : Nat) (t : Tree) (q : List String) (v : Nat) : l[i]? = some t → At t q v → At (.tuple l) (toString i :: q) v
  | named (l : List (String × Tree)) (i : Nat) (k : String) (t : Tree) (q : List String) (v : Nat) :
      l[i]? = some (k, t) → At t q v → At (.named l) (toString i :: q) v
  | dict (l : List (String × Tree)) (k : String) (t : Tree) (q : List String) (v : Nat) : (k, t) ∈ l → At t q v → At (.dict l) (k :: q) v
  | stats (l : List (String × Tree)) (k : String) (t : Tree) (q : List String) (v : Nat) : (k, t) ∈ l → At t q v → At (.stats l) (k :: q) v

mutual
theorem treeLog_mem : ∀ (t : Tree) (root p : List String) (v : Nat), (p, Leaf.number v) ∈ treeLog root t ↔ ∃ q, p = root ++ q ∧ At t q v
  | .nothing, root, p, v => by
    simp only [treeLog, List.not_mem_nil, false_iff]
    rintro ⟨q, _, h⟩; cases h
  | .list l, root, p, v => by
    rw [treeLog, treeLogs_mem l root 0 p v]
    constructor
    · rintro ⟨i, t, q, h1, h2, h3⟩; exact ⟨_, by simpa using h2, .list l i t q v h1 h3⟩
    · rintro ⟨q, h1, h2⟩
      cases h2 with
      | list _ i t q _ h3 h4 => exact ⟨i, t, q, h3, by simpa using h1, h4⟩
  | .tuple l, root, p, v => by
    rw [treeLog, treeLogs_mem l root 0 p v]
    constructor
    · rintro ⟨i, t, q, h1, h2, h3⟩; exact ⟨_, by simpa using h2, .tuple l i t q v h1 h3⟩
    · rintro ⟨q, h1, h2⟩
      cases h2 with
      | tuple _ i t q _ h3 h4 => exact ⟨i, t, q, h3, by simpa using h1, h4⟩
  | .named l, root, p, v => by
    rw [treeLog, treeNamed_mem l root 0 p v]
    constructor
    · rintro ⟨i, k, t, q, h1, h2, h3⟩; exact ⟨_, by simpa using h2, .named l i k t q v h1 h3⟩
    · rintro ⟨q, h1, h2⟩
      cases h2 with
      | named _ i k t q _ h3 h4 => exact ⟨i, k, t, q, h3, by simpa using h1, h4⟩
  | .dict l, root, p, v => by
    rw [treeLog, treeDict_mem l root p v]
    constructor
    · rintro ⟨k, t, q, h1, h2, h3⟩; exact ⟨_, h2, .dict l k t q v h1 h3⟩
    · rintro ⟨q, h1, h2⟩
      cases h2 with
      | dict _ k t q _ h3 h4 => exact ⟨k, t, q, h3, h1, h4⟩
  | .stats l, root, p, v => by
    rw [treeLog, treeDict_mem l root p v]
    constructor
    · rintro ⟨k, t, q, h1, h2, h3⟩; exact ⟨_, h2, .stats l k t q v h1 h3⟩
    · rintro ⟨q, h1, h2⟩
      cases h2 with
      | stats _ k t q _ h3 h4 => exact ⟨k, t, q, h3, h1, h4⟩
  | .cplx x y, root, p, v => by
    simp only [treeLog, List.mem_cons, List.not_mem_nil, or_false, Prod.mk.injEq, Leaf.number.injEq]
    constructor
    · rintro (⟨rfl, rfl⟩ | ⟨rfl, rfl⟩)
      · exact ⟨_, rfl, .re _ _⟩
      · exact ⟨_, rfl, .im _ _⟩
    · rintro ⟨q, rfl, h⟩
      cases h
      · exact Or.inl ⟨rfl, rfl⟩
      · exact Or.inr ⟨rfl, rfl⟩
  | .number x, root, p, v => by
    simp only [treeLog, List.mem_singleton, Prod.mk.injEq, Leaf.number.injEq]
    constructor
    · rintro ⟨rfl, rfl⟩; exact ⟨[], by simp, .number _⟩
    · rintro ⟨q, h1, h2⟩
      cases h2
      exact ⟨by simpa using h1, rfl⟩
  | .other x, root, p, v => by
    simp only [treeLog, List.mem_singleton, Prod.mk.injEq, reduceCtorEq, and_false, false_iff]
    rintro ⟨q, _, h⟩; cases h
theorem treeLogs_mem : ∀ (l : List Tree) (root : List String) (o : Nat) (p : List String) (v : Nat),
    (p, Leaf.number v) ∈ treeLogs root o l ↔ ∃ (i : Nat) (t : Tree) (q : List String), l[i]? = some t ∧ p = root ++ toString (o + i) :: q ∧ At t q v
  | [], root, o, p, v => by simp [treeLogs]
  | t :: l, root, o, p, v => by
    rw [treeLogs, List.mem_append, treeLog_mem t, treeLogs_mem l]
    constructor
    · rintro (⟨q, h1, h2⟩ | ⟨i, t', q, h1, h2, h3⟩)
      · exact ⟨0, t, q, rfl, by simpa using h1, h2⟩
      · exact ⟨i + 1, t', q, by simpa using h1, by rw [h2, show o + 1 + i = o + (i + 1) by omega], h3⟩
    · rintro ⟨i, t', q, h1, h2, h3⟩
      cases i with
      | zero =>
        simp only [List.getElem?_cons_zero, Option.some.injEq] at h1
        subst h1
        exact Or.inl ⟨q, by simpa using h2, h3⟩
      | succ i => exact Or.inr ⟨i, t', q, by simpa using h1, by rw [h2, show o + 1 + i = o + (i + 1) by omega], h3⟩
theorem treeNamed_mem : ∀ (l : List (String × Tree)) (root : List String) (o : Nat) (p : List String) (v : Nat),
    (p, Leaf.number v) ∈ treeNamed root o l ↔
      ∃ (i : Nat) (k : String) (t : Tree) (q : List String), l[i]? = some (k, t) ∧ p = root ++ toString (o + i) :: q ∧ At t q v
  | [], root, o, p, v => by simp [treeNamed]
  | (k, t) :: l, root, o, p, v => by
    rw [treeNamed, List.mem_append, treeLog_mem t, treeNamed_mem l]
    constructor
    · rintro (⟨q, h1, h2⟩ | ⟨i, k', t', q, h1, h2, h3⟩)
      · exact ⟨0, k, t, q, rfl, by simpa using h1, h2⟩
      · exact ⟨i + 1, k', t', q, by simpa using h1, by rw [h2, show o + 1 + i = o + (i + 1) by omega], h3⟩
    · rintro ⟨i, k', t', q, h1, h2, h3⟩
      cases i with
      | zero =>
        simp only [List.getElem?_cons_zero, Option.some.injEq, Prod.mk.injEq] at h1
        obtain ⟨rfl, rfl⟩ := h1
        exact Or.inl ⟨q, by simpa using h2, h3⟩
      | succ i => exact Or.inr ⟨i, k', t', q, by simpa using h1, by rw [h2, show o + 1 + i = o + (i + 1) by omega], h3⟩
theorem treeDict_mem : ∀ (l : List (String × Tree)) (root p : List String) (v : Nat),
    (p, Leaf.number v) ∈ treeDict root l ↔ ∃ (k : String) (t : Tree) (q : List String), (k, t) ∈ l ∧ p = root ++ k :: q ∧ At t q v
  | [], root, p, v => by simp [treeDict]
  | (k, t) :: l, root, p, v => by
    rw [treeDict, List.mem_append, treeLog_mem t, treeDict_mem l]
    constructor
    · rintro (⟨q, h1, h2⟩ | ⟨k', t', q, h1, h2, h3⟩)
      · exact ⟨k, t, q, by simp, by simpa using h1, h2⟩
      · exact ⟨k', t', q, by simp [h1], h2, h3⟩
    · rintro ⟨k', t', q, h1, h2, h3⟩
      rcases List.mem_cons.1 h1 with h | h
      · obtain ⟨rfl, rfl⟩ := Prod.mk.inj h
        exact Or.inl ⟨q, by simpa using h2, h3⟩
      · exact Or.inr ⟨k', t', q, h, h2, h3⟩
end

/-- C185: `TBLog` writes the numbers of the tree and nothing else, each under the tag made of the keys that lead to it. -/
theorem C185_tensorboard (t : Tree) (tag : String) (v : Nat) : (tag, v) ∈ tbWrites t ↔ ∃ q, At t q v ∧ tag = joinTag q := by
  unfold tbWrites
  rw [List.mem_filterMap]
  constructor
  · rintro ⟨⟨p, leaf⟩, h1, h2⟩
    cases leaf with
    | other x => simp at h2
    | number x =>
      simp only [Option.some.injEq, Prod.mk.injEq] at h2
      obtain ⟨rfl, rfl⟩ := h2
      obtain ⟨q, hq, h3⟩ := (treeLog_mem t [] p x).1 h1
      exact ⟨q, h3, by rw [hq]; rfl⟩
  · rintro ⟨q, h1, rfl⟩
    exact ⟨(q, .number v), (treeLog_mem t [] q v).2 ⟨q, by simp, h1⟩, rfl⟩

example : At (.dict [("Energy", .stats [("Mean", .cplx 3 4)]), ("x", .list [.nothing, .number 5])]) ["Energy", "Mean", "im"] 4 :=
  .dict _ "Energy" (.stats [("Mean", .cplx 3 4)]) _ _ (by simp) (.stats _ "Mean" (.cplx 3 4) _ _ (by simp) (.im 3 4))

/-- C186: two numbers at different paths may be written under the same tag, and the fields of named tuples are logged by number, not by name. -/
theorem C186_tensorboard_refuted :
    (¬ ∀ (t : Tree) (q q' : List String) (v v' : Nat), At t q v → At t q' v' → joinTag q = joinTag q' → q = q')
    ∧ tbWrites (.named [("mean", .number 1), ("error", .number 2)]) = [("0", 1), ("1", 2)] := by
  refine ⟨fun h => ?_, by decide⟩
  have := h (.dict [("a/b", .number 1), ("a", .dict [("b", .number 2)])]) ["a/b"] ["a", "b"] 1 2 (.dict _ "a/b" (.number 1) _ _ (by simp) (.number 1))
    (.dict _ "a" (.dict [("b", .number 2)]) _ _ (by simp) (.dict _ "b" (.number 2) _ _ (by simp) (.number 2))) (by decide)
  simp at this

/-! ## Random numbers -/

/-- C185: `randint` gives integers from `low` to `high - 1`, each for draws from an interval of the same length. -/
theorem C185_randint (x : ℚ) (low high : Int) (h0 : 0 ≤ x) (h1 : x < 1) (h : low < high) :
    low ≤ randint x low high ∧ randint x low high < high
    ∧ ∀ k : Nat, (randint x low high = low + k ↔ (k : ℚ) / ((high - low : Int) : ℚ) ≤ x ∧ x < ((k : ℚ) + 1) / ((high - low : Int) : ℚ)) := by
  have hd : (0 : ℚ) < ((high - low : Int) : ℚ) := by
    have : (0 : Int) < high - low := by omega
    exact_mod_cast this
  unfold randint
  refine ⟨?_, ?_, fun k => ?_⟩
  · have : 0 ≤ ⌊x * ((high - low : Int) : ℚ)⌋ := Int.floor_nonneg.2 (mul_nonneg h0 hd.le)
    omega
  · have : ⌊x * ((high - low : Int) : ℚ)⌋ < high - low := by
      rw [Int.floor_lt]
      calc x * ((high - low : Int) : ℚ) < 1 * ((high - low : Int) : ℚ) := mul_lt_mul_of_pos_right h1 hd
        _ = _ := one_mul _
    omega
  · have e : ⌊x * ((high - low : Int) : ℚ)⌋ + low = low + k ↔ ⌊x * ((high - low : Int) : ℚ)⌋ = (k : Int) := by omega
    rw [e, Int.floor_eq_iff, div_le_iff₀ hd, lt_div_iff₀ hd]
    push_cast
    rfl

example := C185_randint (9 / 10) (-2) 3 (by norm_num) (by norm_num) (by decide)

/-- C185: `uniform` gives numbers from `low` to below `high`; a seed given by the user leads to the same seeds of the processes whatever they have drawn before. -/
theorem C185_uniform_seed (x low high : ℚ) (h0 : 0 ≤ x) (h1 : x < 1) (h : low < high) (s : Nat) (own own' : Nat → Nat) (derive : Nat → Nat → Nat) (r : Nat) :
    (low ≤ uniform x low high ∧ uniform x low high < high) ∧ seedOf (some s) own derive r = seedOf (some s) own' derive r
    ∧ seedOf (some s) own derive r = derive s r := by
  unfold uniform
  refine ⟨⟨?_, ?_⟩, rfl, rfl⟩
  · nlinarith [mul_nonneg (sub_nonneg.2 h.le) h0]
  · nlinarith [mul_lt_mul_of_pos_left h1 (sub_pos.2 h)]

example := C185_uniform_seed (9 / 10) (-2) 3 (by norm_num) (by norm_num) (by norm_num) 4 id id (fun s r => s + r) 2

example : randint (9 / 10) (-2) 3 = 2 ∧ randint 0 (-2) 3 = -2 := by
  unfold randint
  norm_num

/-- C186: without a seed every process draws one of its own: the seeds need not come from one number. -/
theorem C186_seed_refuted : ¬ ∀ (own : Nat → Nat) (derive : Nat → Nat → Nat), ∃ s, ∀ r, seedOf none own derive r = derive s r := by
  intro h
  obtain ⟨s, hs⟩ := h (fun r => r) fun s _ => s
  have h0 := hs 0
  have h1 := hs 1
  simp only [seedOf] at h0 h1
  omega

end Verif.LegacyLog
