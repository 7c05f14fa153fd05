import Verif.Model.ToArray
import Verif.Props.Stats
import Mathlib.Algebra.BigOperators.Field

/-!
C55: `to_array` does not depend on the number of ranks as long as all padding is on the last rank; the
general result, and refutations of the full claim.
-/

namespace Verif.ToArray

open Verif.Hilbert (Err)

/-- number of fake states. -/
def fakes (n nodes : Nat) : Nat := chunk n nodes * nodes - n

theorem chunk_mul (n nodes : Nat) (hn : 0 < nodes) : n ≤ chunk n nodes * nodes := by
  unfold chunk
  have h := Nat.div_add_mod (n + nodes - 1) nodes
  have h2 := Nat.mod_lt (n + nodes - 1) hn
  rw [Nat.mul_comm]
  omega

theorem padded_length (n nodes : Nat) (hn : 0 < nodes) : (padded n nodes).length = nodes * chunk n nodes := by
  have := chunk_mul n nodes hn
  rw [padded, List.length_append, List.length_range, List.length_range, Nat.mul_comm nodes]
  omega

theorem rank_length (n nodes r : Nat) (hr : r < nodes) : (rankNumbers n nodes r).length = chunk n nodes := by
  have hl := padded_length n nodes (by omega)
  rw [rankNumbers, List.length_take, List.length_drop, hl]
  have : (r + 1) * chunk n nodes ≤ nodes * chunk n nodes := Nat.mul_le_mul_right _ hr
  rw [Nat.succ_mul] at this
  omega

theorem ranks_flatten (n nodes : Nat) (hn : 0 < nodes) (k : Nat) (hk : k ≤ nodes) :
    (List.range k).flatMap (rankNumbers n nodes) = (padded n nodes).take (k * chunk n nodes) := by
  have := Verif.Stats.pieces_flatten (chunk n nodes) k (padded n nodes)
    (by rw [padded_length n nodes hn]; exact Nat.mul_le_mul_right _ hk)
  rw [← this]
  simp only [Verif.Stats.pieces, List.flatMap_def]
  rfl

/-- which states are kept, over all ranks: all real ones, the fake ones that are not on the last rank,
and blanks. -/
theorem all_logs (n nodes : Nat) (hn : 0 < nodes) (logpsi : Nat → ℂ) :
    ((List.range nodes).flatMap fun r => logLocal n nodes r logpsi) =
      (List.range n).map (fun k => some (logpsi k)) ++
        ((List.range (fakes n nodes - min (fakes n nodes) (chunk n nodes))).map (fun k => some (logpsi k)) ++
          List.replicate (min (fakes n nodes) (chunk n nodes)) none) := by
  obtain ⟨p, rfl⟩ : ∃ p, nodes = p + 1 := ⟨nodes - 1, by omega⟩
  obtain ⟨c, hc⟩ : ∃ c, c = chunk n (p + 1) := ⟨_, rfl⟩
  obtain ⟨F, hF⟩ : ∃ F, F = fakes n (p + 1) := ⟨_, rfl⟩
  have hF' : F = c * (p + 1) - n := by rw [hF, fakes, hc]
  have hle : n ≤ c * (p + 1) := by rw [hc]; exact chunk_mul n (p + 1) hn
  have hpl : (padded n (p + 1)).length = (p + 1) * c := by rw [padded_length n (p + 1) hn, hc]
  have hpc : (p + 1) * c = p * c + c := by rw [Nat.succ_mul]
  have hpc' : c * (p + 1) = p * c + c := by rw [Nat.mul_comm, hpc]
  have hpad : padded n (p + 1) = List.range n ++ List.range F := by rw [padded, hF, fakes]
  rw [List.range_succ, List.flatMap_append, List.flatMap_singleton, ← hF, ← hc]
  have h1 : ((List.range p).flatMap fun r => logLocal n (p + 1) r logpsi) =
      ((padded n (p + 1)).take (p * c)).map fun k => some (logpsi k) := by
    rw [hc, ← ranks_flatten n (p + 1) hn p (Nat.le_succ p), List.map_flatMap]
    apply List.flatMap_congr
    intro r hr
    rw [List.mem_range] at hr
    unfold logLocal
    rw [if_neg (by omega)]
  have h2 : logLocal n (p + 1) p logpsi =
      (((padded n (p + 1)).drop (p * c)).map fun k => some (logpsi k)).take (c - min F c) ++
        List.replicate (min F c) none := by
    have hrl := rank_length n (p + 1) p (Nat.lt_succ_self p)
    have hrk : rankNumbers n (p + 1) p = (padded n (p + 1)).drop (p * c) := by
      rw [rankNumbers, ← hc]
      apply List.take_of_length_le
      rw [List.length_drop, hpl]
      omega
    unfold logLocal
    simp only
    rw [hrl, ← hc, ← hF', hrk]
    have hdl : (((padded n (p + 1)).drop (p * c)).map fun k => some (logpsi k)).length = c := by
      rw [List.length_map, List.length_drop, hpl]; omega
    by_cases hf : 0 < F
    · rw [if_pos ⟨by omega, hf⟩, blankLast, hdl]
      congr 2
      omega
    · have : F = 0 := by omega
      rw [if_neg (by omega), this]
      simp only [Nat.zero_min, Nat.sub_zero, List.replicate_zero, List.append_nil]
      rw [List.take_of_length_le]
      rw [hdl]
  rw [h1, h2, ← List.append_assoc, ← List.append_assoc]
  congr 1
  rw [← List.map_take, ← List.map_append, ← List.map_append]
  congr 1
  have h3 : (padded n (p + 1)).take (p * c) ++ ((padded n (p + 1)).drop (p * c)).take (c - min F c) =
      (padded n (p + 1)).take (p * c + (c - min F c)) := by rw [List.take_add]
  rw [h3, hpad]
  have h4 : p * c + (c - min F c) = n + (F - min F c) := by
    have : min F c ≤ c := Nat.min_le_right _ _
    have : min F c ≤ F := Nat.min_le_left _ _
    omega
  rw [h4, List.take_append, List.length_range, List.take_of_length_le (by rw [List.length_range]; omega),
    List.take_range]
  congr 2
  omega

theorem any_fake (n nodes : Nat) (hn : 0 < nodes) :
    ((List.range nodes).any fun r => (rankNumbers n nodes r).any fun k => decide (n ≤ k)) = true ↔
      n < fakes n nodes := by
  have h := ranks_flatten n nodes hn nodes le_rfl
  rw [List.take_of_length_le (by rw [padded_length n nodes hn])] at h
  have h2 : ((List.range nodes).any fun r => (rankNumbers n nodes r).any fun k => decide (n ≤ k)) =
      (padded n nodes).any fun k => decide (n ≤ k) := by
    rw [← h, List.any_flatMap]
  rw [h2, List.any_eq_true]
  constructor
  · rintro ⟨k, hk, hd⟩
    simp only [decide_eq_true_eq] at hd
    rw [padded, List.mem_append, List.mem_range, List.mem_range] at hk
    unfold fakes
    omega
  · intro hlt
    refine ⟨n, ?_, by simp⟩
    rw [padded, List.mem_append, List.mem_range, List.mem_range]
    exact Or.inr hlt

/-- the squared norm of the amplitudes of the first `n` states (specification). -/
noncomputable def normSum (logpsi : Nat → ℂ) (n : Nat) : ℝ :=
  ((List.range n).map fun k => Complex.normSq (Complex.exp (logpsi k))).sum

theorem normSum_pos (logpsi : Nat → ℂ) (n : Nat) (hn : 0 < n) : 0 < normSum logpsi n := by
  apply List.sum_pos
  · intro x hx
    rcases List.mem_map.1 hx with ⟨k, _, rfl⟩
    exact Complex.normSq_pos.2 (Complex.exp_ne_zero _)
  · simp; omega

theorem normSum_nonneg (logpsi : Nat → ℂ) (n : Nat) : 0 ≤ normSum logpsi n := by
  rcases Nat.eq_zero_or_pos n with h | h
  · simp [h, normSum]
  · exact (normSum_pos logpsi n h).le

/-- fake states that are not removed before the normalisation. -/
def leftover (n nodes : Nat) : Nat := fakes n nodes - min (fakes n nodes) (chunk n nodes)

theorem norm2_eq (n nodes : Nat) (hn : 0 < nodes) (logpsi : Nat → ℂ) (m : ℝ) :
    norm2 n nodes logpsi m =
      Real.exp (-m) * Real.exp (-m) * (normSum logpsi n + normSum logpsi (leftover n nodes)) := by
  have h := all_logs n nodes hn logpsi
  have hf : norm2 n nodes logpsi m = (((List.range nodes).flatMap fun r => logLocal n nodes r logpsi).map
      fun x => Complex.normSq (expO (x.map fun z => z - (m : ℂ)))).sum := by
    rw [norm2, List.map_flatMap, List.flatMap_def, List.sum_flatten, List.map_map]
    congr 1
    apply List.map_congr_left
    intro r _
    simp only [Function.comp, psiLocal, if_true, List.map_map]
    rfl
  have hz : ∀ z : ℂ, Complex.normSq (Complex.exp (z - (m : ℂ))) =
      Real.exp (-m) * Real.exp (-m) * Complex.normSq (Complex.exp z) := by
    intro z
    have h2 : Complex.exp (z - (m : ℂ)) = Complex.exp z * ((Real.exp (-m) : ℝ) : ℂ) := by
      rw [sub_eq_add_neg, Complex.exp_add, Complex.ofReal_exp, Complex.ofReal_neg]
    rw [h2, Complex.normSq_mul, Complex.normSq_ofReal]
    ring
  rw [hf, h, List.map_append, List.map_append, List.sum_append, List.sum_append, List.map_map, List.map_map]
  have hs : ∀ k : Nat, ((List.range k).map ((fun x : Option ℂ => Complex.normSq (expO (x.map fun z => z - (m : ℂ))))
      ∘ fun k => some (logpsi k))).sum = Real.exp (-m) * Real.exp (-m) * normSum logpsi k := by
    intro k
    rw [normSum, ← List.sum_map_mul_left]
    congr 1
    apply List.map_congr_left
    intro j _
    simp only [Function.comp, Option.map_some, expO, hz]
  rw [hs, hs, List.map_replicate]
  simp only [Option.map_none, expO, map_zero, List.sum_replicate, smul_zero, add_zero]
  rw [leftover]
  ring

/-- **What `to_array(normalize=True)` returns on any number of ranks**: an error if there are more fake
than real states; otherwise every amplitude divided by the square root of the norm to which the fake states
outside the last rank are added. -/
theorem C55_result (n nodes : Nat) (h0 : 0 < n) (hn : 0 < nodes) (logpsi : Nat → ℂ) (m : ℝ) :
    toArray n nodes logpsi true m =
      if n < fakes n nodes then .error .valueError
      else .ok ((List.range n).map fun k => Complex.exp (logpsi k) /
        (Real.sqrt (normSum logpsi n + normSum logpsi (leftover n nodes)) : ℂ)) := by
  by_cases hfk : n < fakes n nodes
  · rw [if_pos hfk, toArray, if_pos ((any_fake n nodes hn).2 hfk)]
  rw [if_neg hfk, toArray, if_neg (fun hh => hfk ((any_fake n nodes hn).1 hh))]
  simp only [if_true]
  congr 1
  have h := all_logs n nodes hn logpsi
  have e : ((List.range nodes).flatMap fun r => (psiLocal n nodes r logpsi true m).map fun z =>
      z / (Real.sqrt (norm2 n nodes logpsi m) : ℂ)) =
      ((List.range nodes).flatMap fun r => logLocal n nodes r logpsi).map fun x =>
        expO (x.map fun z => z - (m : ℂ)) / (Real.sqrt (norm2 n nodes logpsi m) : ℂ) := by
    rw [List.map_flatMap]
    apply List.flatMap_congr
    intro r _
    simp only [psiLocal, if_true, List.map_map]
    rfl
  rw [e, h, List.map_append, List.take_append, List.length_map, List.length_map, List.length_range, Nat.sub_self,
    List.take_zero, List.append_nil, List.take_of_length_le (by simp), List.map_map]
  apply List.map_congr_left
  intro k _
  simp only [Function.comp, Option.map_some, expO]
  have hpos : 0 < normSum logpsi n + normSum logpsi (leftover n nodes) :=
    add_pos_of_pos_of_nonneg (normSum_pos _ _ h0) (normSum_nonneg _ _)
  rw [norm2_eq n nodes hn, Real.sqrt_mul (mul_self_nonneg _), Real.sqrt_mul_self (Real.exp_pos _).le]
  have h2 : Complex.exp (logpsi k - (m : ℂ)) = ((Real.exp (-m) : ℝ) : ℂ) * Complex.exp (logpsi k) := by
    rw [sub_eq_add_neg, Complex.exp_add, Complex.ofReal_exp, Complex.ofReal_neg, mul_comm]
  rw [h2, Complex.ofReal_mul]
  apply mul_div_mul_left
  exact_mod_cast (Real.exp_pos (-m)).ne'

/-- the normalised state vector (specification). -/
noncomputable def unitVector (logpsi : Nat → ℂ) (n : Nat) : List ℂ :=
  (List.range n).map fun k => Complex.exp (logpsi k) / (Real.sqrt (normSum logpsi n) : ℂ)

/-- **If all the padding fits on the last rank** the normalised vector is returned, whatever the number of
ranks (and whatever is subtracted for stability). -/
theorem C55_ranks_partial (n nodes : Nat) (h0 : 0 < n) (hn : 0 < nodes) (hf : fakes n nodes ≤ chunk n nodes)
    (hf' : fakes n nodes ≤ n) (logpsi : Nat → ℂ) (m : ℝ) :
    toArray n nodes logpsi true m = .ok (unitVector logpsi n) := by
  rw [C55_result n nodes h0 hn, if_neg (by omega), leftover, Nat.min_eq_left hf, Nat.sub_self]
  simp [normSum, unitVector]

/-- in particular on one rank and whenever the number of ranks divides the number of states. -/
theorem C55_divides (n nodes : Nat) (h0 : 0 < n) (hn : 0 < nodes) (hd : nodes ∣ n) (logpsi : Nat → ℂ) (m : ℝ) :
    toArray n nodes logpsi true m = .ok (unitVector logpsi n) := by
  obtain ⟨q, rfl⟩ := hd
  have hc : chunk (nodes * q) nodes = q := by
    unfold chunk
    have : nodes * q + nodes - 1 = (nodes - 1) + nodes * q := by omega
    rw [this, Nat.add_mul_div_left _ _ hn, Nat.div_eq_of_lt (by omega), Nat.zero_add]
  have hf : fakes (nodes * q) nodes = 0 := by
    rw [fakes, hc, Nat.mul_comm]; simp
  exact C55_ranks_partial _ _ h0 hn (by omega) (by omega) logpsi m

/-- the vector has norm one. -/
theorem C55_norm (n : Nat) (h0 : 0 < n) (logpsi : Nat → ℂ) :
    ((unitVector logpsi n).map fun z => Complex.normSq z).sum = 1 := by
  have hp := normSum_pos logpsi n h0
  rw [unitVector, List.map_map]
  have : ((fun z => Complex.normSq z) ∘ fun k => Complex.exp (logpsi k) / (Real.sqrt (normSum logpsi n) : ℂ)) =
      fun k => (1 / normSum logpsi n) * Complex.normSq (Complex.exp (logpsi k)) := by
    funext k
    simp only [Function.comp]
    rw [Complex.normSq_div, Complex.normSq_ofReal, Real.mul_self_sqrt hp.le]
    ring
  rw [this, List.sum_map_mul_left]
  change 1 / normSum logpsi n * normSum logpsi n = 1
  field_simp

/-- **Exactly when it is right.** For a given number of states and ranks the normalised vector is returned
for all models if and only if the padding fits on the last rank. -/
theorem C55_iff (n nodes : Nat) (h0 : 0 < n) (hn : 0 < nodes) :
    (∀ (logpsi : Nat → ℂ) (m : ℝ), toArray n nodes logpsi true m = .ok (unitVector logpsi n)) ↔
      fakes n nodes ≤ chunk n nodes ∧ fakes n nodes ≤ n := by
  constructor
  · intro h
    by_cases h1 : n < fakes n nodes
    · have := h (fun _ => 0) 0
      rw [C55_result n nodes h0 hn, if_pos h1] at this
      cases this
    refine ⟨?_, by omega⟩
    by_contra h2
    have hl : 0 < leftover n nodes := by
      unfold leftover
      omega
    have := h (fun _ => 0) 0
    rw [C55_result n nodes h0 hn, if_neg h1, unitVector] at this
    have h3 := congrArg (fun e : Except Err (List ℂ) => match e with | .ok l => l.head? | .error _ => none) this
    simp only at h3
    obtain ⟨k, rfl⟩ : ∃ k, n = k + 1 := ⟨n - 1, by omega⟩
    rw [List.range_succ_eq_map] at h3
    simp only [List.map_cons, List.head?_cons, Option.some.injEq] at h3
    have hp := normSum_pos (fun _ => 0) (k + 1) (Nat.succ_pos k)
    have hp2 := normSum_pos (fun _ => 0) (leftover (k + 1) nodes) hl
    rw [div_eq_div_iff, mul_right_inj' (Complex.exp_ne_zero _), Complex.ofReal_inj] at h3
    · have := Real.sqrt_lt_sqrt hp.le (lt_add_of_pos_right (normSum (fun _ => 0) (k + 1)) hp2)
      linarith
    · exact_mod_cast (Real.sqrt_pos.2 (add_pos hp hp2)).ne'
    · exact_mod_cast (Real.sqrt_pos.2 hp).ne'
  · rintro ⟨h1, h2⟩ logpsi m
    exact C55_ranks_partial n nodes h0 hn h1 h2 logpsi m

/-- The full claim is false: five states on four ranks (three fake states, chunks of two). -/
theorem C55_ranks_refuted :
    ¬ ∀ (n nodes : Nat), 0 < n → 0 < nodes → ∀ (logpsi : Nat → ℂ) (m : ℝ),
      toArray n nodes logpsi true m = .ok (unitVector logpsi n) := by
  intro h
  have := (C55_iff 5 4 (by decide) (by decide)).1 (h 5 4 (by decide) (by decide))
  exact absurd this (by decide)

/-- … and two states on five ranks raise a ValueError. -/
theorem C55_error_refuted :
    ¬ ∀ (n nodes : Nat), 0 < n → 0 < nodes → ∀ (logpsi : Nat → ℂ) (m : ℝ),
      toArray n nodes logpsi true m ≠ .error .valueError := by
  intro h
  refine h 2 5 (by decide) (by decide) (fun _ => 0) 0 ?_
  rw [C55_result 2 5 (by decide) (by decide), if_pos (by decide)]

/-- Without normalisation the amplitudes are returned for every number of ranks (if there are not more
fake than real states). -/
theorem C55_unnormalised (n nodes : Nat) (hn : 0 < nodes) (hf : fakes n nodes ≤ n) (logpsi : Nat → ℂ) (m : ℝ) :
    toArray n nodes logpsi false m = .ok ((List.range n).map fun k => Complex.exp (logpsi k)) := by
  rw [toArray, if_neg (fun hh => absurd ((any_fake n nodes hn).1 hh) (by omega))]
  have h := all_logs n nodes hn logpsi
  have e : ((List.range nodes).flatMap fun r => (psiLocal n nodes r logpsi false m).map fun z =>
      if false = true then z / (Real.sqrt (norm2 n nodes logpsi m) : ℂ) else z) =
      ((List.range nodes).flatMap fun r => logLocal n nodes r logpsi).map fun x => expO x := by
    rw [List.map_flatMap]
    apply List.flatMap_congr
    intro r _
    simp [psiLocal]
  simp only
  rw [e, h, List.map_append, List.take_append, List.length_map, List.length_map, List.length_range, Nat.sub_self,
    List.take_zero, List.append_nil, List.take_of_length_le (by simp), List.map_map]
  rfl

/-- `to_matrix` returns the row-major matrix of amplitudes divided by its trace, for every number of ranks;
its trace is one if the trace of the amplitudes does not vanish. -/
theorem C55_matrix (L nodes : Nat) (hn : 0 < nodes) (hf : fakes (L * L) nodes ≤ L * L) (logpsi : Nat → ℂ)
    (m : ℝ) (ht : ∑ i : Fin L, Complex.exp (logpsi (i.val * L + i.val)) ≠ 0) :
    ∃ ρ : Matrix (Fin L) (Fin L) ℂ, toMatrix L nodes logpsi true m = .ok ρ ∧
      (∀ i j, ρ i j = Complex.exp (logpsi (i.val * L + j.val)) /
        ∑ i : Fin L, Complex.exp (logpsi (i.val * L + i.val))) ∧ ρ.trace = 1 := by
  have hget : ∀ i j : Fin L, ((List.range (L * L)).map fun k => Complex.exp (logpsi k)).getD (i.val * L + j.val) 0 =
      Complex.exp (logpsi (i.val * L + j.val)) := by
    intro i j
    have : i.val * L + j.val < L * L := by
      have h1 : (i.val + 1) * L ≤ L * L := Nat.mul_le_mul_right _ i.isLt
      rw [Nat.succ_mul] at h1
      omega
    simp [List.getD, this]
  have e : toMatrix L nodes logpsi true m = .ok fun i j => Complex.exp (logpsi (i.val * L + j.val)) /
      ∑ i : Fin L, Complex.exp (logpsi (i.val * L + i.val)) := by
    rw [toMatrix, C55_unnormalised _ _ hn hf]
    simp only [hget, Matrix.trace, Matrix.diag]
    exact congrArg Except.ok (if_pos trivial)
  refine ⟨_, e, fun _ _ => rfl, ?_⟩
  simp only [Matrix.trace, Matrix.diag]
  rw [← Finset.sum_div, div_self ht]

/-- six states on four ranks: chunks of two, two fake states, all on the last rank. -/
example : 0 < fakes 6 4 ∧ fakes 6 4 ≤ chunk 6 4 ∧ fakes 6 4 ≤ 6 := by decide

example := C55_result 6 4 (by decide) (by decide) (fun n => n) 5

example := C55_ranks_partial 6 4 (by decide) (by decide) (by decide) (by decide) (fun n => n) 5

example := C55_divides 6 3 (by decide) (by decide) (by decide) (fun n => n) 5

example := C55_norm 6 (by decide) (fun n => n)

example := C55_iff 6 4 (by decide) (by decide)

example := C55_unnormalised 6 4 (by decide) (by decide) (fun n => n) 5

example := C55_matrix 2 3 (by decide) (by decide) (fun _ => 0) 0 (by simp)

end Verif.ToArray
