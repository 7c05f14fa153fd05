import Verif.Model.MPS
import Verif.Props.Machines
import Mathlib.LinearAlgebra.Matrix.Trace
import Mathlib.Tactic.FieldSimp
import Mathlib.Tactic.Ring
import Mathlib.Tactic.NormNum

/-! C64: the amplitude of a periodic matrix product state is the trace of the product of its matrices, invariant under shifts by the period. -/

set_option linter.unusedSectionVars false
set_option linter.unusedVariables false

namespace Verif.MPS
open Verif.Hilbert (Err)

variable {K : Type} [Field K] {D : Nat}

theorem foldl_multiply (l : List (Fin D → Fin D → K)) (M : Fin D → Fin D → K) :
    (Matrix.of (l.foldl multiply M) : Matrix (Fin D) (Fin D) K) = Matrix.of M * (l.map Matrix.of).prod := by
  induction l generalizing M with
  | nil => simp
  | cons a l ih =>
    rw [List.foldl_cons, ih, List.map_cons, List.prod_cons, ← Matrix.mul_assoc]
    rfl

/-- C64: the scan computes the trace of the matrix product. -/
theorem C64_trace (l : List (Fin D → Fin D → K)) : traceScan l = Matrix.trace (l.map Matrix.of).prod := by
  have h := foldl_multiply l fun a b => if a = b then (1 : K) else 0
  have h1 : (Matrix.of fun a b : Fin D => if a = b then (1 : K) else 0) = 1 := by
    ext a b
    simp [Matrix.one_apply]
  rw [h1, one_mul] at h
  rw [← h]
  rfl

/-- C64: the amplitude is Tr A₀[s₀] … A_{L-1}[s_{L-1}], where the tensor of site `i` is that of the unit cell at `i` modulo the period. -/
theorem C64_amplitude (S : Setup) (L physDim : Nat) (kernel : Nat → Nat → Fin D → Fin D → K) (x : Nat → Rat) :
    amplitude S L physDim kernel x
      = Matrix.trace ((List.range L).map fun i => (Matrix.of (kernel (i % S.period.toNat) (index S physDim (x i))) : Matrix (Fin D) (Fin D) K)).prod := by
  unfold amplitude
  rw [C64_trace, List.map_map]
  rfl

/-- C64: in terms of the stored parameters, every matrix of the product is the identity plus the parameters of its site and local state. -/
theorem C64_parameters (S : Setup) (L physDim : Nat) (param : Nat → Nat → Fin D → Fin D → K) (x : Nat → Rat) :
    amplitude S L physDim (kernelFull param) x
      = Matrix.trace ((List.range L).map fun i =>
          (1 + Matrix.of (param (i % S.period.toNat) (index S physDim (x i))) : Matrix (Fin D) (Fin D) K)).prod := by
  rw [C64_amplitude]
  congr 3
  funext i
  ext a b
  simp [kernelFull, Matrix.one_apply, add_comm]

/-- C64: with all parameters zero every configuration has the bond dimension as amplitude. -/
theorem C64_zero_parameters (S : Setup) (L physDim : Nat) (x : Nat → Rat) :
    amplitude S L physDim (kernelFull fun _ _ (_ _ : Fin D) => (0 : K)) x = (D : K) := by
  rw [C64_parameters]
  have : (fun i => (1 + Matrix.of (fun _ _ => (0 : K)) : Matrix (Fin D) (Fin D) K)) = fun _ : Nat => 1 := by
    funext i; ext a b; simp
  rw [this]
  simp [Matrix.trace]

theorem trace_rotate {n : Nat} (A B : List (Matrix (Fin n) (Fin n) K)) : Matrix.trace (A ++ B).prod = Matrix.trace (B ++ A).prod := by
  rw [List.prod_append, List.prod_append, Matrix.trace_mul_comm]

/-- C64: shifting a configuration around the chain by a multiple of the period does not change the amplitude. -/
theorem C64_shift (S : Setup) (L physDim k : Nat) (kernel : Nat → Nat → Fin D → Fin D → K) (x : Nat → Rat)
    (hL : S.period.toNat ∣ L) (hk : S.period.toNat ∣ k) :
    amplitude S L physDim kernel (fun i => x ((i + k) % L)) = amplitude S L physDim kernel x := by
  rcases Nat.eq_zero_or_pos L with h0 | hpos
  · subst h0; rfl
  have hr : S.period.toNat ∣ k % L := (Nat.dvd_mod_iff hL).2 hk
  have hlt : k % L < L := Nat.mod_lt _ hpos
  have hmod : ∀ i, (i + k) % L = (i + k % L) % L := fun i => by rw [Nat.add_mod_mod]
  rw [C64_amplitude, C64_amplitude]
  simp only [hmod]
  generalize hq : k % L = q at *
  generalize S.period.toNat = p at *
  set f : Nat → Matrix (Fin D) (Fin D) K := fun i => Matrix.of (kernel (i % p) (index S physDim (x i))) with hf
  have e1 : (List.range L).map (fun i => (Matrix.of (kernel (i % p) (index S physDim (x ((i + q) % L)))) : Matrix (Fin D) (Fin D) K))
      = ((List.range (L - q)).map fun i => f (q + i)) ++ (List.range q).map f := by
    conv_lhs => rw [show L = (L - q) + q by omega, List.range_add]
    rw [List.map_append, List.map_map]
    congr 1
    · refine List.map_congr_left fun i hi => ?_
      have hi' := List.mem_range.1 hi
      have a : (i + q) % (L - q + q) = q + i := by rw [show L - q + q = L by omega, Nat.mod_eq_of_lt (by omega), Nat.add_comm]
      have b : (q + i) % p = i % p := by
        obtain ⟨c, rfl⟩ := hr
        rw [Nat.mul_add_mod]
      simp only [hf, a, b]
    · refine List.map_congr_left fun i hi => ?_
      have hi' := List.mem_range.1 hi
      have a : (L - q + i + q) % (L - q + q) = i := by
        rw [show L - q + q = L by omega, show L - q + i + q = i + L by omega, Nat.add_mod_right, Nat.mod_eq_of_lt (by omega)]
      have b : (L - q + i) % p = i % p := by
        have hd : p ∣ L - q := Nat.dvd_sub hL hr
        obtain ⟨c, hc⟩ := hd
        rw [hc, Nat.mul_add_mod]
      simp only [Function.comp_apply, hf, a, b]
  have e2 : (List.range L).map f = (List.range q).map f ++ (List.range (L - q)).map fun i => f (q + i) := by
    conv_lhs => rw [show L = q + (L - q) by omega, List.range_add]
    rw [List.map_append, List.map_map]
    rfl
  rw [e1, e2, trace_rotate]

/-- C64: with diagonal tensors the amplitude is a sum over the bond index of products of entries. -/
theorem C64_diag (S : Setup) (L physDim : Nat) (param : Nat → Nat → Fin D → K) (x : Nat → Rat) :
    amplitude S L physDim (expandDiag (kernelDiag param)) x
      = ∑ a, ((List.range L).map fun i => param (i % S.period.toNat) (index S physDim (x i)) a + 1).prod := by
  have key : ∀ l : List (Fin D → K), (l.map fun v => (Matrix.of fun a b => v a * if a = b then 1 else 0 : Matrix (Fin D) (Fin D) K)).prod
      = Matrix.diagonal fun a => (l.map fun v => v a).prod := by
    intro l
    induction l with
    | nil => simp
    | cons v l ih =>
      rw [List.map_cons, List.prod_cons, ih]
      have : (Matrix.of fun a b => v a * if a = b then 1 else 0 : Matrix (Fin D) (Fin D) K) = Matrix.diagonal v := by
        ext a b
        simp [Matrix.diagonal_apply]
      rw [this, Matrix.diagonal_mul_diagonal]
      simp
  have h := key ((List.range L).map fun i => kernelDiag param (i % S.period.toNat) (index S physDim (x i)))
  rw [C64_amplitude]
  rw [List.map_map] at h
  have e : (List.range L).map (fun i => (Matrix.of (expandDiag (kernelDiag param) (i % S.period.toNat) (index S physDim (x i))) : Matrix (Fin D) (Fin D) K))
      = (List.range L).map ((fun v : Fin D → K => (Matrix.of fun a b => v a * if a = b then 1 else 0 : Matrix (Fin D) (Fin D) K))
          ∘ fun i => kernelDiag param (i % S.period.toNat) (index S physDim (x i))) := rfl
  rw [e, h, Matrix.trace_diagonal]
  refine Finset.sum_congr rfl fun a _ => ?_
  rw [List.map_map]
  rfl

/-! ## Setup -/

/-- C64: without a period every site has its own tensor; then `setup` succeeds on every non-empty chain with evenly spaced local states. -/
theorem C64_setup_default (L : Nat) (hL : 0 < L) (a d : Rat) (m : Nat) (hm : 2 ≤ m) (hd : 0 < d) :
    ∃ S, setup L ((List.range m).map fun k : Nat => a + k * d) none = .ok S ∧ S.period = L ∧ S.spacing = d ∧ S.bias = a := by
  have hsp : ∀ (n s : Nat), spacings ((List.range' s (n + 1)).map fun k : Nat => a + k * d) = List.replicate n d := by
    intro n
    induction n with
    | zero => intro s; rfl
    | succ n ih =>
      intro s
      have h1 := ih (s + 1)
      rw [List.range'_succ] at h1 ⊢
      rw [List.map_cons] at h1 ⊢
      rw [List.range'_succ, List.map_cons, spacings, h1, List.replicate_succ]
      congr 1
      push_cast
      ring
  have hmin : ∀ (n s : Nat), minimum ((List.range' s (n + 1)).map fun k : Nat => a + k * d) = a + s * d := by
    intro n
    induction n with
    | zero => intro s; rfl
    | succ n ih =>
      intro s
      have h1 := ih (s + 1)
      rw [List.range'_succ, List.map_cons] at h1 ⊢
      rw [List.range'_succ, List.map_cons, minimum, h1]
      · refine min_eq_left ?_
        push_cast
        nlinarith
      · simp
  obtain ⟨n, rfl⟩ : ∃ n, m = n + 1 + 1 := ⟨m - 2, by omega⟩
  rw [List.range_eq_range']
  have h1 := hsp (n + 1) 0
  have h2 := hmin (n + 1) 0
  refine ⟨⟨d, a, L⟩, ?_, rfl, rfl, rfl⟩
  unfold setup
  rw [h1, h2, List.replicate_succ]
  have h3 : (List.replicate n d).all (fun b => decide (b = d)) = true := by simp
  have h4 : (L : Int) ≠ 0 := by omega
  have h5 : Int.fmod (L : Int) (L : Int) = 0 := Int.fmod_self
  simp [h3, hL]
  omega

/-- C64: `setup` accepts exactly the periods that divide the number of sites. -/
theorem C64_setup_period (L : Nat) (hL : 0 < L) (states : List Rat) (p : Int) (S : Setup) (h : setup L states (some p) = .ok S) :
    S.period = p ∧ 0 < p ∧ S.period.toNat ∣ L := by
  unfold setup at h
  split at h
  · simp at h
  · split at h
    · simp only at h
      split at h
      · simp at h
      · split at h
        · rename_i _ hp
          obtain rfl := Except.ok.inj h
          refine ⟨rfl, hp.2, ?_⟩
          have h1 := Int.dvd_of_fmod_eq_zero hp.1
          have h2 : ((p.toNat : Int)) ∣ (L : Int) := by rwa [Int.toNat_of_nonneg (by omega)]
          exact Int.natCast_dvd_natCast.1 h2
        · simp at h
    · simp at h

/-- C64: the local states, evenly spaced from `bias`, have the indices 0, 1, … -/
theorem C64_index (S : Setup) (physDim k : Nat) (hs : S.spacing ≠ 0) : index S physDim (S.bias + k * S.spacing) = k := by
  have e : (S.bias + (k : Rat) * S.spacing - S.bias) / S.spacing = ((k : Int) : Rat) := by
    rw [add_sub_cancel_left, mul_div_assoc, div_self hs, mul_one]
    norm_cast
  have h0 : (0 : Rat) ≤ ((k : Int) : Rat) := by
    rw [Int.cast_natCast]
    exact Nat.cast_nonneg k
  unfold index
  simp only [e, h0, if_true, Rat.floor_intCast]
  simp

/-- C64: a period of zero is a ZeroDivisionError, not the AssertionError of the other wrong periods. -/
theorem C64_setup_zero (L : Nat) : setup L [-1, 1] (some 0) = .error .zeroDivision ∧ ∀ p : Int, p < 0 → setup L [-1, 1] (some p) = .error .assertionError := by
  constructor
  · simp [setup, spacings]
  · intro p hp
    have h1 : p ≠ 0 := by omega
    have h2 : ¬ (p > 0) := by omega
    simp [setup, spacings, h1, h2]

/-! ## The logarithm -/

/-- C64: for complex tensors the returned logarithm has the trace as its exponential. -/
theorem C64_complex (S : Setup) (L physDim : Nat) (kernel : Nat → Nat → Fin D → Fin D → ℂ) (x : Nat → Rat) :
    Verif.Machines.expo (callComplex S L physDim kernel x)
      = Matrix.trace ((List.range L).map fun i => (Matrix.of (kernel (i % S.period.toNat) (index S physDim (x i))) : Matrix (Fin D) (Fin D) ℂ)).prod := by
  rw [← C64_amplitude, callComplex, Verif.Machines.clog]
  split
  · rename_i h; rw [h]; rfl
  · rename_i h; rw [Verif.Machines.expo_coe, Complex.exp_log h]

/-- C122: for real tensors it is NaN on every configuration with a negative trace. -/
theorem C122_mps_real_partial (S : Setup) (L physDim : Nat) (kernel : Nat → Nat → Fin D → Fin D → ℝ) (x : Nat → Rat) :
    callReal S L physDim kernel x = none ↔ amplitude S L physDim kernel x < 0 := by
  unfold callReal
  simp only
  split
  · rename_i h; simp [h]
  · rename_i h
    split <;> simp [h]

/-- C122: and there are such: the documentation allows real parameters, but one site with the tensor -2 + 1 has no logarithm. -/
theorem C122_mps_real_refuted :
    ¬ ∀ (S : Setup) (L physDim D : Nat) (param : Nat → Nat → Fin D → Fin D → ℝ) (x : Nat → Rat),
      setup L [-1, 1] none = .ok S → callReal S L physDim (kernelFull param) x ≠ none := by
  intro h
  have hs : setup 1 [-1, 1] none = .ok ⟨2, -1, 1⟩ := by decide +kernel
  refine h ⟨2, -1, 1⟩ 1 2 1 (fun _ _ _ _ => -2) (fun _ => 1) hs ?_
  rw [C122_mps_real_partial, C64_amplitude]
  simp [Matrix.trace, kernelFull]

/-! ## Examples -/

/-- hypotheses of `C64_shift`: four sites with period two. -/
example : ∃ S, setup 4 [-1, 1] (some 2) = .ok S ∧ S.period.toNat ∣ 4 ∧ S.period.toNat ∣ 2 ∧ S.spacing ≠ 0 :=
  ⟨⟨2, -1, 2⟩, by decide +kernel, by decide +kernel, by decide +kernel, by decide +kernel⟩

/-- the shift is by the period only: with two different tensors a shift by one site changes the amplitude. -/
example : amplitude (D := 1) (K := Rat) ⟨2, -1, 2⟩ 2 2 (fun i s _ _ => (i : Rat) + 2 * s) (fun i => if i = 0 then 1 else -1)
    ≠ amplitude (D := 1) (K := Rat) ⟨2, -1, 2⟩ 2 2 (fun i s _ _ => (i : Rat) + 2 * s) (fun i => if (i + 1) % 2 = 0 then 1 else -1) := by
  decide +kernel

/-- uneven local states, a single local state. -/
example : setup 3 [0, 1, 3] none = .error .assertionError ∧ setup 3 [0] none = .error .valueError := by decide +kernel

end Verif.MPS
