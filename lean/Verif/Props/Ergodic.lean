import Verif.Lemmas.Ergodic
import Verif.Props.Rules
import Verif.Props.HamiltonianRule

/-! C202: the Metropolis chains reach `|psi|^machine_pow`; C203: two local values, constant modulus and
an even number of sweeps. -/

namespace Verif.Metro

open Verif.Markov Finset Filter Topology

section general
variable {X D : Type} [DecidableEq X] [Fintype D]

/-- one proposal that can be drawn. -/
def Proposes (S : Finset X) (w : X → D → ℝ) (prop : D → X → X) (x y : X) : Prop :=
  x ∈ S ∧ ∃ d, w x d ≠ 0 ∧ prop d x = y

theorem proposal_pos (S : Finset X) (w : X → D → ℝ) (prop : D → X → X) (corr : D → X → Option ℝ)
    (hb : Balanced S w prop corr) {x y : X} (hx : x ∈ S) :
    0 < proposal w prop x y ↔ ∃ d, w x d ≠ 0 ∧ prop d x = y := by
  have hnn : ∀ d ∈ (univ : Finset D), 0 ≤ (if prop d x = y then w x d else 0) := fun d _ => by
    split
    · exact hb.nonneg x hx d
    · exact le_refl 0
  constructor
  · intro h
    by_contra hc
    push Not at hc
    have : proposal w prop x y = 0 := Finset.sum_eq_zero fun d _ => by
      by_cases hw : w x d = 0
      · simp [hw]
      · rw [if_neg (hc d hw)]
    linarith
  · rintro ⟨d, hw, hp⟩
    refine Finset.sum_pos' hnn ⟨d, mem_univ _, ?_⟩
    rw [if_pos hp]
    exact lt_of_le_of_ne (hb.nonneg x hx d) (Ne.symm hw)

theorem kernel_pos (S : Finset X) (w : X → D → ℝ) (prop : D → X → X) (corr : D → X → Option ℝ)
    (lp : X → ℝ) (hb : Balanced S w prop corr) {x y : X} (h : Proposes S w prop x y) :
    y ∈ S ∧ (x ≠ y → 0 < kernel w (step lp prop corr) x y) := by
  obtain ⟨hx, d, hw, rfl⟩ := h
  refine ⟨hb.closed x hx d hw, fun hne => ?_⟩
  obtain ⟨c, hc, _⟩ := hb.ratio
  rw [kernel_offdiag S w prop corr lp c hc x _ hx hne]
  exact mul_pos ((proposal_pos S w prop corr hb hx).2 ⟨d, hw, rfl⟩)
    (lt_min one_pos (Real.exp_pos _))

/-- a draw which proposes the current configuration, or which can be rejected. -/
theorem kernel_loop (S : Finset X) (w : X → D → ℝ) (prop : D → X → X) (corr : D → X → Option ℝ)
    (lp : X → ℝ) (hb : Balanced S w prop corr) {x : X} (hx : x ∈ S) (d : D) (hw : w x d ≠ 0)
    (h : prop d x = x ∨ lp (prop d x) + (corr d x).getD 0 < lp x) :
    0 < kernel w (step lp prop corr) x x := by
  rw [kernel]
  refine Finset.sum_pos' (fun d _ => mul_nonneg (hb.nonneg x hx d) ENNReal.toReal_nonneg)
    ⟨d, mem_univ _, mul_pos (lt_of_le_of_ne (hb.nonneg x hx d) (Ne.symm hw)) ?_⟩
  rw [step_volume_self]
  by_cases he : prop d x = x
  · rw [if_pos he]; exact one_pos
  · rw [if_neg he]
    have h1 := h.resolve_left he
    have h2 : ratio (lp (prop d x)) (lp x) (corr d x) < 1 := by
      rw [ratio, Real.exp_lt_one_iff]; linarith
    linarith [min_le_right 1 (ratio (lp (prop d x)) (lp x) (corr d x))]

/-- Whatever the wavefunction, the chain can reach every configuration from every other one as soon as
    the rule's proposals connect them: no wall of small amplitude is closed. -/
theorem C202_irreducible (S : Finset X) (w : X → D → ℝ) (prop : D → X → X) (corr : D → X → Option ℝ)
    (lp : X → ℝ) (hb : Balanced S w prop corr)
    (hc : ∀ x ∈ S, ∀ y ∈ S, Relation.ReflTransGen (Proposes S w prop) x y) :
    Irreducible S (kernel w (step lp prop corr)) ∧
      OnlyStationary S (fun x => Real.exp (lp x)) (kernel w (step lp prop corr)) ∧
      AverageConverges S (fun x => Real.exp (lp x)) (kernel w (step lp prop corr)) := by
  have hs := kernel_stochastic S w prop corr lp hb
  have hr := C44_detailed_balance S w prop corr lp hb
  have hi : Irreducible S (kernel w (step lp prop corr)) := by
    refine irreducible_of_edges hs fun x hx y hy => ?_
    have := hc x hx y hy
    clear hy
    induction this with
    | refl => exact .refl
    | tail _ e ih =>
      next b c _ =>
      by_cases hbc : b = c
      · subst hbc; exact ih
      · exact ih.tail ⟨e.1, (kernel_pos S w prop corr lp hb e).1,
          (kernel_pos S w prop corr lp hb e).2 hbc⟩
  exact ⟨hi, onlyStationary_of_irreducible hs hr (fun _ _ => Real.exp_pos _) hi,
    averageConverges_of_irreducible hs (hr.stationary hs) (fun _ _ => Real.exp_pos _) hi⟩

/-- If moreover some draw proposes no change or can be rejected, the law of the `t`-th sample tends to the
    normalised `|psi|^pow`, for every number of sweeps between samples and every starting configuration. -/
theorem C202_converges (S : Finset X) (w : X → D → ℝ) (prop : D → X → X) (corr : D → X → Option ℝ)
    (lp : X → ℝ) (hb : Balanced S w prop corr)
    (hc : ∀ x ∈ S, ∀ y ∈ S, Relation.ReflTransGen (Proposes S w prop) x y)
    (hl : ∃ x ∈ S, ∃ d, w x d ≠ 0 ∧ (prop d x = x ∨ lp (prop d x) + (corr d x).getD 0 < lp x))
    (nSweeps : Nat) (hn : 0 < nSweeps) :
    Converges S (fun x => Real.exp (lp x)) (kpow S (kernel w (step lp prop corr)) nSweeps) := by
  have hs := kernel_stochastic S w prop corr lp hb
  have hr := C44_detailed_balance S w prop corr lp hb
  obtain ⟨x, hx, d, hw, h⟩ := hl
  refine (converges_of_return hs (hr.stationary hs) (fun _ _ => Real.exp_pos _)
    (C202_irreducible S w prop corr lp hb hc).1 hx (k0 := 0) fun k _ => ?_).kpow hn
  exact return_of_loop hs hx (kernel_loop S w prop corr lp hb hx d hw h) k

/-- a wavefunction whose modulus is not constant lets some proposal be rejected. -/
theorem rejects_of_nonconst (S : Finset X) (w : X → D → ℝ) (prop : D → X → X)
    (lp : X → ℝ) (hb : Balanced S w prop fun _ _ => none)
    (hc : ∀ x ∈ S, ∀ y ∈ S, Relation.ReflTransGen (Proposes S w prop) x y)
    (hne : ∃ x ∈ S, ∃ y ∈ S, lp x ≠ lp y) :
    ∃ x ∈ S, ∃ d, w x d ≠ 0 ∧
      (prop d x = x ∨ lp (prop d x) + ((fun _ _ => none : D → X → Option ℝ) d x).getD 0 < lp x) := by
  obtain ⟨x, hx, y, hy, hxy⟩ := hne
  have hstep : ∃ a ∈ S, ∃ d, w a d ≠ 0 ∧ lp (prop d a) ≠ lp a := by
    by_contra hcon
    push Not at hcon
    refine hxy ?_
    have := hc x hx y hy
    clear hxy hy
    induction this with
    | refl => rfl
    | tail _ e ih =>
      obtain ⟨h1, d, h2, rfl⟩ := e
      rw [ih, hcon _ h1 d h2]
  obtain ⟨a, ha, d, hw, hd⟩ := hstep
  simp only [Option.getD_none, add_zero]
  rcases lt_or_gt_of_ne hd with h | h
  · exact ⟨a, ha, d, hw, Or.inr h⟩
  · have hb' := hb.closed a ha d hw
    have hab : a ≠ prop d a := fun e => hd (by rw [← e])
    obtain ⟨c, hc1, hc2⟩ := hb.ratio
    have h1 := hc2 a ha _ hb' hab
    have h2 : 0 < proposal w prop (prop d a) a := by
      rw [← h1]
      exact mul_pos ((proposal_pos S w prop _ hb ha).2 ⟨d, hw, rfl⟩) (Real.exp_pos _)
    obtain ⟨d', hw', e'⟩ := (proposal_pos S w prop _ hb hb').1 h2
    exact ⟨_, hb', d', hw', Or.inr (by rw [e']; exact h)⟩

end general

/-! ### local moves -/

theorem mix_get (τ σ : List Int) (k : Nat) (hk : k ≤ τ.length) (i : Nat) :
    (τ.take k ++ σ.drop k)[i]? = if i < k then τ[i]? else σ[i]? := by
  rw [List.getElem?_append, List.length_take, Nat.min_eq_left hk]
  by_cases h : i < k
  · rw [if_pos h, if_pos h, List.getElem?_take_of_lt h]
  · rw [if_neg h, if_neg h, List.getElem?_drop]
    congr 1; omega

/-- every configuration of an unconstrained space is reached by local moves. -/
theorem local_connected (ls : List Int) (hs : ls.Pairwise (· < ·)) (h2 : 2 ≤ ls.length) (N : Nat)
    (hN : 0 < N) (S : Finset (List Int))
    (hS : ∀ σ, σ ∈ S ↔ σ.length = N ∧ ∀ v ∈ σ, v ∈ ls) :
    ∀ σ ∈ S, ∀ τ ∈ S, Relation.ReflTransGen
      (Proposes S (fun _ _ => 1 / (Fintype.card (Fin N × Fin (ls.length - 1)) : ℝ))
        (fun d : Fin N × Fin (ls.length - 1) => localNumpyRow ls d.1 d.2)) σ τ := by
  intro σ hσ τ hτ
  have : Nonempty (Fin N × Fin (ls.length - 1)) := ⟨(⟨0, hN⟩, ⟨0, by omega⟩)⟩
  have hw : (1 / (Fintype.card (Fin N × Fin (ls.length - 1)) : ℝ)) ≠ 0 := by
    have : (Fintype.card (Fin N × Fin (ls.length - 1)) : ℝ) ≠ 0 := by
      exact_mod_cast Fintype.card_ne_zero
    positivity
  obtain ⟨l1, v1⟩ := (hS σ).1 hσ
  obtain ⟨l2, v2⟩ := (hS τ).1 hτ
  have hmix : ∀ k, τ.take k ++ σ.drop k ∈ S := fun k => (hS _).2
    ⟨by simp [l1, l2]; omega, fun v hv => by
      rcases List.mem_append.1 hv with h | h
      · exact v2 v (List.mem_of_mem_take h)
      · exact v1 v (List.mem_of_mem_drop h)⟩
  have key : ∀ k, k ≤ N → Relation.ReflTransGen
      (Proposes S (fun _ _ => 1 / (Fintype.card (Fin N × Fin (ls.length - 1)) : ℝ))
        (fun d : Fin N × Fin (ls.length - 1) => localNumpyRow ls d.1 d.2)) σ
        (τ.take k ++ σ.drop k) := by
    intro k
    induction k with
    | zero => intro _; simpa using Relation.ReflTransGen.refl
    | succ k ih =>
      intro hk
      refine (ih (by omega)).trans ?_
      have h1 : k < σ.length := by omega
      have h2' : k < τ.length := by omega
      have hl : (τ.take k ++ σ.drop k).length = N := ((hS _).1 (hmix k)).1
      have e : τ.take (k + 1) ++ σ.drop (k + 1) = (τ.take k ++ σ.drop k).set k τ[k] := by
        apply List.ext_getElem?
        intro i
        rw [mix_get τ σ (k + 1) (by omega)]
        by_cases hik : i = k
        · subst hik
          rw [if_pos (by omega), List.getElem?_set_self (by omega), List.getElem?_eq_getElem h2']
        · rw [List.getElem?_set_ne (Ne.symm hik), mix_get τ σ k (by omega)]
          by_cases h : i < k
          · rw [if_pos h, if_pos (by omega)]
          · rw [if_neg h, if_neg (by omega)]
      have hg : (τ.take k ++ σ.drop k).getD k 0 = σ[k] := by
        rw [List.getD_eq_getElem?_getD, mix_get τ σ k (by omega), if_neg (lt_irrefl k)]
        simp [h1]
      rw [e]
      by_cases hv : σ[k] = τ[k]
      · have : (τ.take k ++ σ.drop k).set k τ[k] = τ.take k ++ σ.drop k := by
          apply List.ext_getElem?
          intro i
          by_cases hik : i = k
          · subst hik
            rw [List.getElem?_set_self (by omega), mix_get τ σ i (by omega), if_neg (lt_irrefl i),
              List.getElem?_eq_getElem h1, hv]
          · rw [List.getElem?_set_ne (Ne.symm hik)]
        rw [this]
      · obtain ⟨r, hr, hr', _⟩ := otherLocal_unique ls hs _ _ (v1 _ (List.getElem_mem h1))
          (v2 _ (List.getElem_mem h2')) hv
        refine .single ⟨hmix k, (⟨k, by omega⟩, ⟨r, hr⟩), hw, ?_⟩
        simp only [localNumpyRow]
        rw [hg, hr']
  have := key N (le_refl _)
  rwa [show τ.take N = τ by rw [← l2]; simp, show σ.drop N = [] by rw [← l1]; simp,
    List.append_nil] at this


/-- the kernel of one pass with local moves: site and new value uniform. -/
noncomputable abbrev localKernel (ls : List Int) (N : Nat) (lp : List Int → ℝ) :
    List Int → List Int → ℝ :=
  kernel (fun _ _ => 1 / (Fintype.card (Fin N × Fin (ls.length - 1)) : ℝ))
    (step lp (fun d : Fin N × Fin (ls.length - 1) => localNumpyRow ls d.1 d.2) (fun _ _ => none))

section loc
variable {ls : List Int} {N : Nat} {S : Finset (List Int)}

theorem local_edge (hs : ls.Pairwise (· < ·)) (h2 : 2 ≤ ls.length)
    (hN : 0 < N) (hS : ∀ σ, σ ∈ S ↔ σ.length = N ∧ ∀ v ∈ σ, v ∈ ls) (lp : List Int → ℝ)
    {σ : List Int} (hσ : σ ∈ S) {i : Nat} (hi : i < N) {v : Int} (hv : v ∈ ls)
    (hne : σ[i]? ≠ some v) :
    σ.set i v ∈ S ∧ 0 < localKernel ls N lp σ (σ.set i v) := by
  have : Nonempty (Fin N × Fin (ls.length - 1)) := ⟨(⟨0, hN⟩, ⟨0, by omega⟩)⟩
  have hw : (1 / (Fintype.card (Fin N × Fin (ls.length - 1)) : ℝ)) ≠ 0 := by
    have : (Fintype.card (Fin N × Fin (ls.length - 1)) : ℝ) ≠ 0 := by
      exact_mod_cast Fintype.card_ne_zero
    positivity
  obtain ⟨l1, v1⟩ := (hS σ).1 hσ
  have h1 : i < σ.length := by omega
  rw [List.getElem?_eq_getElem h1] at hne
  have hne' : σ[i] ≠ v := fun e => hne (by rw [e])
  obtain ⟨r, hr, hr', _⟩ := otherLocal_unique ls hs _ _ (v1 _ (List.getElem_mem h1)) hv hne'
  have hp : Proposes S (fun _ _ => 1 / (Fintype.card (Fin N × Fin (ls.length - 1)) : ℝ))
      (fun d : Fin N × Fin (ls.length - 1) => localNumpyRow ls d.1 d.2) σ (σ.set i v) := by
    refine ⟨hσ, (⟨i, hi⟩, ⟨r, hr⟩), hw, ?_⟩
    simp only [localNumpyRow]
    rw [show σ.getD i 0 = σ[i] by simp [h1], hr']
  obtain ⟨h3, h4⟩ := kernel_pos S _ _ (fun _ _ => none) lp (C44_local_balanced ls hs h2 N hN S hS) hp
  refine ⟨h3, h4 fun e => hne' ?_⟩
  have := congrArg (fun l : List Int => l[i]?) e
  simpa [h1] using this

theorem local_two (hs : ls.Pairwise (· < ·)) (h2 : 2 ≤ ls.length)
    (hN : 0 < N) (hS : ∀ σ, σ ∈ S ↔ σ.length = N ∧ ∀ v ∈ σ, v ∈ ls) (lp : List Int → ℝ) :
    ∀ σ ∈ S, 0 < kpow S (localKernel ls N lp) 2 σ σ := by
  intro σ hσ
  have hst := kernel_stochastic S _ _ _ lp (C44_local_balanced ls hs h2 N hN S hS)
  obtain ⟨l1, v1⟩ := (hS σ).1 hσ
  have h1 : 0 < σ.length := by omega
  have hm := otherLocal_mem ls hs _ (v1 _ (List.getElem_mem h1)) 0 (by omega)
  obtain ⟨a1, a2⟩ := local_edge hs h2 hN hS lp hσ hN hm.1
    (by rw [List.getElem?_eq_getElem h1]; exact fun e => hm.2 (Option.some.inj e).symm)
  obtain ⟨b1, b2⟩ := local_edge hs h2 hN hS lp a1 hN (v1 _ (List.getElem_mem h1))
    (by rw [List.getElem?_set_self h1]; exact fun e => hm.2 (Option.some.inj e))
  rw [List.set_set, List.set_getElem_self] at b2
  exact kpow_pos_trans (m := 1) (n := 1) hst hσ a1 hσ (by rw [kpow_one _ _ a1]; exact a2)
    (by rw [kpow_one _ _ hσ]; exact b2)

theorem local_three (hs : ls.Pairwise (· < ·)) (h3 : 3 ≤ ls.length)
    (hN : 0 < N) (hS : ∀ σ, σ ∈ S ↔ σ.length = N ∧ ∀ v ∈ σ, v ∈ ls) (lp : List Int → ℝ) :
    ∀ σ ∈ S, 0 < kpow S (localKernel ls N lp) 3 σ σ := by
  intro σ hσ
  have h2 : 2 ≤ ls.length := by omega
  have hst := kernel_stochastic S _ _ _ lp (C44_local_balanced ls hs h2 N hN S hS)
  obtain ⟨l1, v1⟩ := (hS σ).1 hσ
  have h1 : 0 < σ.length := by omega
  have hv := v1 _ (List.getElem_mem h1)
  have hm := otherLocal_mem ls hs _ hv 0 (by omega)
  have hm' := otherLocal_mem ls hs _ hv 1 (by omega)
  have hne : otherLocal ls 0 σ[0] ≠ otherLocal ls 1 σ[0] := by
    intro e
    obtain ⟨r, _, _, hu⟩ := otherLocal_unique ls hs _ _ hv hm.1 (Ne.symm hm.2)
    have e0 := hu 0 (by omega) rfl
    have e1 := hu 1 (by omega) e.symm
    omega
  obtain ⟨a1, a2⟩ := local_edge hs h2 hN hS lp hσ hN hm.1
    (by rw [List.getElem?_eq_getElem h1]; exact fun e => hm.2 (Option.some.inj e).symm)
  obtain ⟨b1, b2⟩ := local_edge hs h2 hN hS lp a1 hN hm'.1
    (by rw [List.getElem?_set_self h1]; exact fun e => hne (Option.some.inj e))
  rw [List.set_set] at b1 b2
  obtain ⟨c1, c2⟩ := local_edge hs h2 hN hS lp b1 hN hv
    (by rw [List.getElem?_set_self h1]; exact fun e => hm'.2 (Option.some.inj e))
  rw [List.set_set, List.set_getElem_self] at c2
  exact kpow_pos_trans (m := 2) (n := 1) hst hσ b1 hσ
    (kpow_pos_trans (m := 1) (n := 1) hst hσ a1 b1 (by rw [kpow_one _ _ a1]; exact a2)
      (by rw [kpow_one _ _ b1]; exact b2)) (by rw [kpow_one _ _ hσ]; exact c2)

/-- Local moves on an unconstrained space with at least two local values: whatever the wavefunction, one
    pass at a time every configuration is reached from every other one, `|psi|^pow` is the only stationary
    density up to a factor, and the expected fraction of visits converges to it. -/
theorem C202_local_irreducible (ls : List Int) (hs : ls.Pairwise (· < ·)) (h2 : 2 ≤ ls.length) (N : Nat)
    (hN : 0 < N) (S : Finset (List Int)) (hS : ∀ σ, σ ∈ S ↔ σ.length = N ∧ ∀ v ∈ σ, v ∈ ls)
    (pow : Nat) (logPsi : List Int → ℝ) :
    let P := localKernel ls N fun σ => pow * logPsi σ
    Irreducible S P ∧ OnlyStationary S (fun σ => Real.exp (logPsi σ) ^ pow) P ∧
      AverageConverges S (fun σ => Real.exp (logPsi σ) ^ pow) P := by
  have h := C202_irreducible S _ _ _ (fun σ => pow * logPsi σ)
    (C44_local_balanced ls hs h2 N hN S hS) (local_connected ls hs h2 N hN S hS)
  simpa only [Real.exp_nat_mul] using h

/-- With three or more local values, or a modulus that is not constant, the law of the `t`-th sample tends
    to the normalised `|psi|^pow` for every starting configuration and every positive number of sweeps. -/
theorem C202_local_converges (ls : List Int) (hs : ls.Pairwise (· < ·)) (h2 : 2 ≤ ls.length) (N : Nat)
    (hN : 0 < N) (S : Finset (List Int)) (hS : ∀ σ, σ ∈ S ↔ σ.length = N ∧ ∀ v ∈ σ, v ∈ ls)
    (pow : Nat) (logPsi : List Int → ℝ)
    (h : 3 ≤ ls.length ∨ (pow ≠ 0 ∧ ∃ σ ∈ S, ∃ τ ∈ S, logPsi σ ≠ logPsi τ))
    (nSweeps : Nat) (hn : 0 < nSweeps) :
    Converges S (fun σ => Real.exp (logPsi σ) ^ pow)
      (kpow S (localKernel ls N fun σ => pow * logPsi σ) nSweeps) := by
  have hb := C44_local_balanced ls hs h2 N hN S hS
  have hc := local_connected ls hs h2 N hN S hS
  simp only [← Real.exp_nat_mul]
  rcases h with h | ⟨hp, σ, hσ, τ, hτ, h⟩
  · have hst := kernel_stochastic S _ _ _ (fun σ => pow * logPsi σ) hb
    have hr := C44_detailed_balance S _ _ _ (fun σ => pow * logPsi σ) hb
    have hmem : List.replicate N (ls[0]'(by omega)) ∈ S := (hS _).2
      ⟨by simp, fun v hv => by rw [List.eq_of_mem_replicate hv]; exact List.getElem_mem _⟩
    exact (converges_of_return hst (hr.stationary hst) (fun _ _ => Real.exp_pos _)
      (C202_irreducible S _ _ _ _ hb hc).1 hmem
      (return_of_two_three hst hmem (local_two hs h2 hN hS _ _ hmem)
        (local_three hs h hN hS _ _ hmem))).kpow hn
  · refine C202_converges S _ _ _ (fun σ => pow * logPsi σ) hb hc
      (rejects_of_nonconst S _ _ (fun σ => pow * logPsi σ) hb hc ⟨σ, hσ, τ, hτ, fun e => h ?_⟩) nSweeps hn
    exact mul_left_cancel₀ (by exact_mod_cast hp) e

/-- With an odd number of sweeps the samples reach every configuration, and the expected fraction of
    samples at a configuration tends to its normalised `|psi|^pow`, for every wavefunction. -/
theorem C202_local_odd (ls : List Int) (hs : ls.Pairwise (· < ·)) (h2 : 2 ≤ ls.length) (N : Nat)
    (hN : 0 < N) (S : Finset (List Int)) (hS : ∀ σ, σ ∈ S ↔ σ.length = N ∧ ∀ v ∈ σ, v ∈ ls)
    (pow : Nat) (logPsi : List Int → ℝ) (nSweeps : Nat) (hn : nSweeps % 2 = 1) :
    let P := kpow S (localKernel ls N fun σ => pow * logPsi σ) nSweeps
    Irreducible S P ∧ OnlyStationary S (fun σ => Real.exp (logPsi σ) ^ pow) P ∧
      AverageConverges S (fun σ => Real.exp (logPsi σ) ^ pow) P := by
  have hb := C44_local_balanced ls hs h2 N hN S hS
  have hst := kernel_stochastic S _ _ _ (fun σ => pow * logPsi σ) hb
  obtain ⟨k1, k2, k3⟩ := C44_local ls hs h2 N hN S hS pow logPsi nSweeps
  have hi := irreducible_odd hst (C202_local_irreducible ls hs h2 N hN S hS pow logPsi).1
    (local_two hs h2 hN hS _) hn
  have hp : ∀ σ ∈ S, 0 < Real.exp (logPsi σ) ^ pow := fun _ _ => by positivity
  exact ⟨hi, onlyStationary_of_irreducible k1 k2 hp hi, averageConverges_of_irreducible k1 k3 hp hi⟩

end loc

/-! ### exchange moves -/

/-- sites joined by a cluster. -/
def Joined (clusters : List (Int × Int)) (i j : Nat) : Prop :=
  ((i : Int), (j : Int)) ∈ clusters ∨ ((j : Int), (i : Int)) ∈ clusters

theorem exchangeRow_comm (σ : List Int) (i j : Nat) (hi : i < σ.length) (hj : j < σ.length) :
    exchangeRow σ i j = exchangeRow σ j i := by
  apply List.ext_getElem?
  intro k
  rw [C45_swap σ i j hi hj, C45_swap σ j i hj hi]
  by_cases h1 : k = j
  · subst h1
    by_cases h2 : k = i
    · subst h2; rfl
    · rw [if_pos rfl, if_neg h2, if_pos rfl]
  · by_cases h2 : k = i
    · subst h2; rw [if_neg h1, if_pos rfl, if_pos rfl]
    · rw [if_neg h1, if_neg h2, if_neg h2, if_neg h1]

theorem exchangeRow_length (σ : List Int) (i j : Nat) (hi : i < σ.length) (hj : j < σ.length) :
    (exchangeRow σ i j).length = σ.length := (C45_perm σ i j (by omega) (by omega)).length_eq

theorem exchangeRow_triple (σ : List Int) (i j k : Nat) (hi : i < σ.length) (hj : j < σ.length)
    (hk : k < σ.length) (hij : i ≠ j) (hjk : j ≠ k) (hik : i ≠ k) :
    exchangeRow (exchangeRow (exchangeRow σ i j) j k) i j = exchangeRow σ i k := by
  have l1 := exchangeRow_length σ i j hi hj
  have l2 := exchangeRow_length (exchangeRow σ i j) j k (by omega) (by omega)
  apply List.ext_getElem?
  intro m
  rw [C45_swap _ i j (by omega) (by omega), C45_swap σ i k hi hk]
  simp only [C45_swap (exchangeRow σ i j) j k (by omega) (by omega), C45_swap σ i j hi hj]
  by_cases h1 : m = i
  · subst h1; simp [hij, hik, hjk, hjk.symm, Ne.symm hik]
  · by_cases h2 : m = j
    · subst h2; simp [hij, hik, hjk, Ne.symm hij]
    · by_cases h3 : m = k
      · subst h3; simp [h1, h2, hij, hjk.symm, hij.symm, Ne.symm hik]
      · simp [h1, h2, h3]

section exch
variable {clusters : List (Int × Int)} {N : Nat} {S : Finset (List Int)}

/-- exchange of two joined sites is a proposal. -/
theorem exchange_proposes (hne : clusters ≠ []) (hlen : ∀ σ ∈ S, σ.length = N) {σ : List Int}
    (hσ : σ ∈ S) {i j : Nat} (hi : i < N) (hj : j < N) (h : Joined clusters i j) :
    Proposes S (fun _ _ => 1 / (Fintype.card (Fin clusters.length) : ℝ))
      (fun d : Fin clusters.length => fun σ => exchangeRow σ clusters[d].1 clusters[d].2) σ
      (exchangeRow σ i j) := by
  have : Nonempty (Fin clusters.length) := ⟨⟨0, List.length_pos_iff.2 hne⟩⟩
  have hw : (1 / (Fintype.card (Fin clusters.length) : ℝ)) ≠ 0 := by
    have : (Fintype.card (Fin clusters.length) : ℝ) ≠ 0 := by
      exact_mod_cast Fintype.card_ne_zero
    positivity
  rcases h with h | h
  · obtain ⟨k, hk, e⟩ := List.getElem_of_mem h
    refine ⟨hσ, ⟨k, hk⟩, hw, ?_⟩
    simp only [Fin.getElem_fin, e]
  · obtain ⟨k, hk, e⟩ := List.getElem_of_mem h
    refine ⟨hσ, ⟨k, hk⟩, hw, ?_⟩
    simp only [Fin.getElem_fin, e]
    have := hlen σ hσ
    exact exchangeRow_comm σ j i (by omega) (by omega)

/-- joined sites form a connected graph on `0, …, N-1`. -/
def SitesConnected (clusters : List (Int × Int)) (N : Nat) : Prop :=
  ∀ i, i < N → ∀ j, j < N →
    Relation.ReflTransGen (fun a b => a < N ∧ b < N ∧ Joined clusters a b) i j

theorem exchange_any (hne : clusters ≠ []) (hlen : ∀ σ ∈ S, σ.length = N)
    (hperm : ∀ σ ∈ S, ∀ τ, τ.Perm σ → τ ∈ S) (hcon : SitesConnected clusters N) {i j : Nat} (hi : i < N)
    (hj : j < N) : ∀ σ ∈ S, Relation.ReflTransGen
      (Proposes S (fun _ _ => 1 / (Fintype.card (Fin clusters.length) : ℝ))
      (fun d : Fin clusters.length => fun σ => exchangeRow σ clusters[d].1 clusters[d].2)) σ
      (exchangeRow σ i j) := by
  have hcl : ∀ σ ∈ S, ∀ a b, a < N → b < N → exchangeRow σ a b ∈ S := fun σ hσ a b ha hb =>
    hperm σ hσ _ (C45_perm σ a b (by rw [hlen σ hσ]; omega) (by rw [hlen σ hσ]; omega))
  have hself : ∀ σ ∈ S, exchangeRow σ i i = σ := by
    intro σ hσ
    have := hlen σ hσ
    apply List.ext_getElem?
    intro k
    rw [C45_swap σ i i (by omega) (by omega)]
    by_cases h : k = i
    · rw [if_pos h, h]
    · rw [if_neg h, if_neg h]
  have hpath := hcon i hi j hj
  clear hj
  induction hpath with
  | refl => intro σ hσ; rw [hself σ hσ]
  | tail _ e ih =>
    next b c _ =>
    obtain ⟨hb, hc, he⟩ := e
    intro σ hσ
    have l0 := hlen σ hσ
    by_cases hib : i = b
    · subst hib
      exact .single (exchange_proposes hne hlen hσ hi hc he)
    by_cases hbc : b = c
    · subst hbc; exact ih σ hσ
    by_cases hic : i = c
    · subst hic; rw [hself σ hσ]
    have s1 := hcl σ hσ i b hi hb
    have s2 := hcl _ s1 b c hb hc
    rw [← exchangeRow_triple σ i b c (by omega) (by omega) (by omega) hib hbc hic]
    exact ((ih σ hσ).tail (exchange_proposes hne hlen s1 hb hc he)).trans (ih _ s2)

/-- all rearrangements are reached. -/
theorem exchange_connected (hne : clusters ≠ []) (hlen : ∀ σ ∈ S, σ.length = N)
    (hperm : ∀ σ ∈ S, ∀ τ, τ.Perm σ → τ ∈ S) (hcon : SitesConnected clusters N) :
    ∀ σ ∈ S, ∀ τ, τ.Perm σ → Relation.ReflTransGen
      (Proposes S (fun _ _ => 1 / (Fintype.card (Fin clusters.length) : ℝ))
      (fun d : Fin clusters.length => fun σ => exchangeRow σ clusters[d].1 clusters[d].2)) σ τ := by
  intro σ hσ τ hτ
  have lσ := hlen σ hσ
  have lτ : τ.length = N := by rw [hτ.length_eq, lσ]
  have key : ∀ k, k ≤ N → ∃ ρ, ρ.Perm σ ∧ (∀ (i : Nat), i < k → ρ[i]? = τ[i]?) ∧
      Relation.ReflTransGen
      (Proposes S (fun _ _ => 1 / (Fintype.card (Fin clusters.length) : ℝ))
      (fun d : Fin clusters.length => fun σ => exchangeRow σ clusters[d].1 clusters[d].2)) σ ρ := by
    intro k
    induction k with
    | zero => intro _; exact ⟨σ, List.Perm.refl _, fun i hi => absurd hi (by omega), .refl⟩
    | succ k ih =>
      intro hk
      obtain ⟨ρ, hp, heq, hr⟩ := ih (by omega)
      have lρ : ρ.length = N := by rw [hp.length_eq, lσ]
      have ht : ρ.take k = τ.take k := by
        apply List.ext_getElem?
        intro i
        by_cases h : i < k
        · rw [List.getElem?_take_of_lt h, List.getElem?_take_of_lt h, heq i h]
        · rw [List.getElem?_take_eq_none (by omega), List.getElem?_take_eq_none (by omega)]
      have hd : (τ.drop k).Perm (ρ.drop k) := by
        have h1 : (τ.take k ++ τ.drop k).Perm (τ.take k ++ ρ.drop k) := by
          rw [List.take_append_drop, ← ht, List.take_append_drop]
          exact hτ.trans hp.symm
        exact (List.perm_append_left_iff _).1 h1
      have hk' : k < τ.length := by omega
      have hm : τ[k] ∈ ρ.drop k := hd.subset (by
        rw [List.drop_eq_getElem_cons hk']; exact List.mem_cons_self)
      obtain ⟨j, hj, ej⟩ := List.getElem_of_mem hm
      have hj' : k + j < N := by rw [List.length_drop] at hj; omega
      rw [List.getElem_drop] at ej
      have hS := hperm σ hσ ρ hp
      refine ⟨exchangeRow ρ k (k + j : Nat), (C45_perm ρ k (k + j : Nat) (by omega) (by omega)).trans hp,
        fun i hi => ?_, hr.trans (exchange_any hne hlen hperm hcon (by omega) hj' ρ hS)⟩
      rw [C45_swap ρ k (k + j) (by omega) (by omega)]
      by_cases h0 : j = 0
      · subst h0
        by_cases hik : i = k
        · subst hik
          rw [if_pos (by omega), List.getElem?_eq_getElem (by omega), List.getElem?_eq_getElem hk', ← ej]
          rfl
        · rw [if_neg (by omega), if_neg hik, heq i (by omega)]
      · by_cases hik : i = k
        · subst hik
          rw [if_neg (by omega), if_pos rfl, List.getElem?_eq_getElem (by omega),
            List.getElem?_eq_getElem hk', ej]
        · rw [if_neg (by omega), if_neg hik, heq i (by omega)]
  obtain ⟨ρ, hp, heq, hr⟩ := key N (le_refl _)
  have : ρ = τ := by
    apply List.ext_getElem?
    intro i
    by_cases h : i < N
    · exact heq i h
    · rw [List.getElem?_eq_none (by rw [hp.length_eq]; omega), List.getElem?_eq_none (by omega)]
  rw [← this]; exact hr

/-- the kernel of one pass with exchange moves. -/
noncomputable abbrev exchangeKernel (clusters : List (Int × Int)) (lp : List Int → ℝ) :
    List Int → List Int → ℝ :=
  kernel (fun _ _ => 1 / (Fintype.card (Fin clusters.length) : ℝ))
    (step lp (fun d : Fin clusters.length => fun σ => exchangeRow σ clusters[d].1 clusters[d].2)
      (fun _ _ => none))

theorem exists_distinct {r : Nat → Nat → Prop} {a b : Nat} (h : Relation.ReflTransGen r a b)
    (hab : a ≠ b) : ∃ c d, r c d ∧ c ≠ d := by
  induction h with
  | refl => exact absurd rfl hab
  | tail _ e ih =>
    next b c _ =>
    by_cases h : b = c
    · subst h; exact ih hab
    · exact ⟨b, c, e, h⟩

/-- a repeated value can be brought to two joined sites. -/
theorem exchange_idle (hcon : SitesConnected clusters N) (σ : List Int) (hl : σ.length = N)
    (hdup : ¬ σ.Nodup) : ∃ ρ, ρ.Perm σ ∧ ∃ i j, i < N ∧ j < N ∧ Joined clusters i j ∧
      exchangeRow ρ i j = ρ := by
  obtain ⟨p, q, hp, hq, hpq, e⟩ : ∃ p q, ∃ (hp : p < σ.length) (hq : q < σ.length), p < q ∧
      σ[p] = σ[q] := by
    by_contra hc
    push Not at hc
    exact hdup (List.pairwise_iff_getElem.2 fun i j hi hj hij => hc i j hi hj hij)
  obtain ⟨i, j, ⟨hi, hj, hij⟩, hne⟩ := exists_distinct (hcon p (by omega) q (by omega)) (by omega)
  have l1 := exchangeRow_length σ p i hp (by omega)
  have p1 := C45_perm σ p i (by omega) (by omega)
  obtain ⟨q', hq', hqi, eq'⟩ : ∃ q', q' < N ∧ q' ≠ i ∧ (exchangeRow σ p i)[q']? = some σ[p] := by
    by_cases h : q = i
    · subst h
      refine ⟨p, by omega, by omega, ?_⟩
      rw [C45_swap σ p q hp hq, if_neg (by omega), if_pos rfl, List.getElem?_eq_getElem hq, e]
    · refine ⟨q, by omega, h, ?_⟩
      rw [C45_swap σ p i hp (by omega), if_neg h, if_neg (by omega), List.getElem?_eq_getElem hq, e]
  have l2 := exchangeRow_length (exchangeRow σ p i) q' j (by omega) (by omega)
  refine ⟨exchangeRow (exchangeRow σ p i) q' j,
    (C45_perm _ q' j (by omega) (by omega)).trans p1, i, j, hi, hj, hij, ?_⟩
  have e1 : (exchangeRow (exchangeRow σ p i) q' j)[i]? = some σ[p] := by
    rw [C45_swap _ q' j (by omega) (by omega), if_neg hne, if_neg (Ne.symm hqi),
      C45_swap σ p i hp (by omega), if_pos rfl, List.getElem?_eq_getElem hp]
  have e2 : (exchangeRow (exchangeRow σ p i) q' j)[j]? = some σ[p] := by
    rw [C45_swap _ q' j (by omega) (by omega), if_pos rfl, eq']
  apply List.ext_getElem?
  intro k
  rw [C45_swap _ i j (by omega) (by omega)]
  by_cases h1 : k = j
  · rw [if_pos h1, h1, e1, e2]
  · rw [if_neg h1]
    by_cases h2 : k = i
    · rw [if_pos h2, h2, e1, e2]
    · rw [if_neg h2]

end exch

/-- Exchange moves with a connected graph of clusters: on the rearrangements of a configuration (for two
    local values, e.g. spins 1/2 with `total_sz`, the whole constrained space) every configuration is reached
    from every other one, and `|psi|^pow` is the only stationary density. -/
theorem C202_exchange_irreducible (clusters : List (Int × Int)) (hne : clusters ≠ []) (N : Nat)
    (hcl : ∀ c ∈ clusters, (-(N : Int) ≤ c.1 ∧ c.1 < N) ∧ (-(N : Int) ≤ c.2 ∧ c.2 < N))
    (hcon : SitesConnected clusters N) (σ₀ : List Int) (hl : σ₀.length = N) (S : Finset (List Int))
    (hS : ∀ τ, τ ∈ S ↔ τ.Perm σ₀) (pow : Nat) (logPsi : List Int → ℝ) :
    let P := exchangeKernel clusters fun σ => pow * logPsi σ
    Irreducible S P ∧ OnlyStationary S (fun σ => Real.exp (logPsi σ) ^ pow) P ∧
      AverageConverges S (fun σ => Real.exp (logPsi σ) ^ pow) P := by
  have hlen : ∀ σ ∈ S, σ.length = N := fun σ hσ => by rw [((hS σ).1 hσ).length_eq, hl]
  have hperm : ∀ σ ∈ S, ∀ τ, τ.Perm σ → τ ∈ S := fun σ hσ τ h => (hS τ).2 (h.trans ((hS σ).1 hσ))
  have h := C202_irreducible S _ _ _ (fun σ => pow * logPsi σ)
    (C44_exchange_balanced clusters hne N hcl S hlen hperm) fun σ hσ τ hτ =>
      exchange_connected hne hlen hperm hcon σ hσ τ (((hS τ).1 hτ).trans ((hS σ).1 hσ).symm)
  simpa only [Real.exp_nat_mul] using h

/-- If some value occurs twice (e.g. three or more spins 1/2), or the modulus is not constant, the law of
    the `t`-th sample tends to the normalised `|psi|^pow`, for every positive number of sweeps. -/
theorem C202_exchange_converges (clusters : List (Int × Int)) (hne : clusters ≠ []) (N : Nat)
    (hcl : ∀ c ∈ clusters, (-(N : Int) ≤ c.1 ∧ c.1 < N) ∧ (-(N : Int) ≤ c.2 ∧ c.2 < N))
    (hcon : SitesConnected clusters N) (σ₀ : List Int) (hl : σ₀.length = N) (S : Finset (List Int))
    (hS : ∀ τ, τ ∈ S ↔ τ.Perm σ₀) (pow : Nat) (logPsi : List Int → ℝ)
    (h : ¬ σ₀.Nodup ∨ (pow ≠ 0 ∧ ∃ σ ∈ S, ∃ τ ∈ S, logPsi σ ≠ logPsi τ))
    (nSweeps : Nat) (hn : 0 < nSweeps) :
    Converges S (fun σ => Real.exp (logPsi σ) ^ pow)
      (kpow S (exchangeKernel clusters fun σ => pow * logPsi σ) nSweeps) := by
  have hlen : ∀ σ ∈ S, σ.length = N := fun σ hσ => by rw [((hS σ).1 hσ).length_eq, hl]
  have hperm : ∀ σ ∈ S, ∀ τ, τ.Perm σ → τ ∈ S := fun σ hσ τ h => (hS τ).2 (h.trans ((hS σ).1 hσ))
  have hb := C44_exchange_balanced clusters hne N hcl S hlen hperm
  have hc : ∀ σ ∈ S, ∀ τ ∈ S, Relation.ReflTransGen
      (Proposes S (fun _ _ => 1 / (Fintype.card (Fin clusters.length) : ℝ))
      (fun d : Fin clusters.length => fun σ => exchangeRow σ clusters[d].1 clusters[d].2)) σ τ :=
    fun σ hσ τ hτ => exchange_connected hne hlen hperm hcon σ hσ τ
      (((hS τ).1 hτ).trans ((hS σ).1 hσ).symm)
  simp only [← Real.exp_nat_mul]
  rcases h with h | ⟨hp, σ, hσ, τ, hτ, h⟩
  · obtain ⟨ρ, hρ, i, j, hi, hj, hij, e⟩ := exchange_idle hcon σ₀ hl h
    have hm := (hS ρ).2 hρ
    obtain ⟨_, d, hw, hd⟩ := exchange_proposes hne hlen hm hi hj hij
    exact C202_converges S _ _ _ (fun σ => pow * logPsi σ) hb hc
      ⟨ρ, hm, d, hw, Or.inl (hd.trans e)⟩ nSweeps hn
  · refine C202_converges S _ _ _ (fun σ => pow * logPsi σ) hb hc
      (rejects_of_nonconst S _ _ (fun σ => pow * logPsi σ) hb hc ⟨σ, hσ, τ, hτ, fun e => h ?_⟩) nSweeps hn
    exact mul_left_cancel₀ (by exact_mod_cast hp) e

/-! ### moves along the connections of an operator -/

/-- Hamiltonian sampling: if the operator connects all of `S`, every configuration is reached and
    `|psi|^pow` is the only stationary density. If it also has a diagonal element somewhere (a configuration
    listed among its own connections), the law of the `t`-th sample converges for every positive number of
    sweeps. -/
theorem C202_hamiltonian {X : Type} [DecidableEq X] (conn : X → List X) (M : Nat) (S : Finset X)
    (hM : ∀ x ∈ S, (conn x).length ≤ M) (hne : ∀ x ∈ S, conn x ≠ [])
    (hcl : ∀ x ∈ S, ∀ y ∈ conn x, y ∈ S)
    (hsym : ∀ x ∈ S, ∀ y ∈ S, x ≠ y → (conn x).count y = (conn y).count x)
    (hcon : ∀ x ∈ S, ∀ y ∈ S, Relation.ReflTransGen (fun a b => b ∈ conn a) x y)
    (pow : Nat) (logPsi : X → ℝ) :
    let P := kernel (hamW conn M) (step (fun x => pow * logPsi x) (hamProp conn M) (hamCorr conn M))
    Irreducible S P ∧ OnlyStationary S (fun x => Real.exp (logPsi x) ^ pow) P ∧
      AverageConverges S (fun x => Real.exp (logPsi x) ^ pow) P ∧
      ((∃ x ∈ S, x ∈ conn x) → ∀ nSweeps, 0 < nSweeps →
        Converges S (fun x => Real.exp (logPsi x) ^ pow) (kpow S P nSweeps)) := by
  have hb := C53_balanced conn M S hM hne hcl hsym
  have hprop : ∀ x ∈ S, ∀ y ∈ conn x, ∃ d, hamW conn M x d ≠ 0 ∧ hamProp conn M d x = y := by
    intro x hx y hy
    obtain ⟨k, hk, e⟩ := List.getElem_of_mem hy
    have hpos : (0 : ℝ) < ((conn x).length : ℝ) := by
      exact_mod_cast List.length_pos_iff.2 (hne x hx)
    refine ⟨⟨k, lt_of_lt_of_le hk (hM x hx)⟩, ?_, ?_⟩
    · rw [hamW, if_pos hk]; positivity
    · simp [hamProp, hk, e]
  have hc : ∀ x ∈ S, ∀ y ∈ S, Relation.ReflTransGen (Proposes S (hamW conn M) (hamProp conn M)) x y := by
    intro x hx y hy
    have h := hcon x hx y hy
    have : y ∈ S ∧ Relation.ReflTransGen (Proposes S (hamW conn M) (hamProp conn M)) x y := by
      clear hy
      induction h with
      | refl => exact ⟨hx, .refl⟩
      | tail _ e ih => exact ⟨hcl _ ih.1 _ e, ih.2.tail ⟨ih.1, hprop _ ih.1 _ e⟩⟩
    exact this.2
  have h := C202_irreducible S _ _ _ (fun x => pow * logPsi x) hb hc
  have h' := C202_converges S _ _ _ (fun x => pow * logPsi x) hb hc
  simp only [Real.exp_nat_mul] at h h'
  refine ⟨h.1, h.2.1, h.2.2, fun ⟨x, hx, hd⟩ n hn => h' ?_ n hn⟩
  obtain ⟨d, hw, e⟩ := hprop x hx x hd
  exact ⟨x, hx, d, hw, Or.inl e⟩


/-! ### C203: two local values, constant modulus, even number of sweeps -/

/-- number of sites with the upper value, modulo two. -/
def parity (b : Int) (σ : List Int) : Nat := σ.count b % 2

theorem local_flip_parity (a b : Int) (hab : a < b) (σ : List Int) (hσ : ∀ v ∈ σ, v ∈ [a, b]) (i : Nat)
    (hi : i < σ.length) : (parity b σ + parity b (localNumpyRow [a, b] i 0 σ)) % 2 = 1 := by
  simp only [localNumpyRow, parity]
  have hg : σ.getD i 0 = σ[i] := by simp [hi]
  have hm : σ[i] = a ∨ σ[i] = b := by simpa using hσ _ (List.getElem_mem hi)
  have hc := List.count_set (a := otherLocal [a, b] 0 (σ.getD i 0)) (b := b) hi
  rcases hm with h | h
  · have e : otherLocal [a, b] 0 (σ.getD i 0) = b := by rw [hg, h]; simp [otherLocal]
    rw [e] at hc ⊢
    rw [hc, h]
    have : (a == b) = false := by simpa using hab.ne
    simp [this] <;> omega
  · have e : otherLocal [a, b] 0 (σ.getD i 0) = a := by
      rw [hg, h]; simp [otherLocal, not_le.2 hab]
    have hpos : 0 < σ.count b := List.count_pos_iff.2 (h ▸ List.getElem_mem hi)
    rw [e] at hc ⊢
    rw [hc, h]
    have : (a == b) = false := by simpa using hab.ne
    simp [this] <;> omega

/-- every possible pass changes the parity when the modulus is constant: all proposals are accepted. -/
theorem local_kernel_parity (a b : Int) (hab : a < b) (N : Nat) (hN : 0 < N) (S : Finset (List Int))
    (hS : ∀ σ, σ ∈ S ↔ σ.length = N ∧ ∀ v ∈ σ, v ∈ [a, b]) (lp : List Int → ℝ)
    (hlp : ∀ σ ∈ S, ∀ τ ∈ S, lp σ = lp τ) (σ τ : List Int) (hσ : σ ∈ S)
    (h : (parity b σ + parity b τ) % 2 = 0) : localKernel [a, b] N lp σ τ = 0 := by
  have hb := C44_local_balanced [a, b] (by simpa using hab) (by simp) N hN S hS
  obtain ⟨l1, v1⟩ := (hS σ).1 hσ
  refine Finset.sum_eq_zero fun d _ => ?_
  have hd0 : (d.2 : Nat) = 0 := by have h1 := d.2.2; have h2 : [a, b].length = 2 := rfl; omega
  have hpar := local_flip_parity a b hab σ v1 d.1 (by have := d.1.2; omega)
  have hne : localNumpyRow [a, b] d.1 d.2 σ ≠ τ := by
    rw [hd0]; intro e; rw [e] at hpar; omega
  by_cases hst : σ = τ
  · subst hst
    have hmem := hb.closed σ hσ d (by
      have : Nonempty (Fin N × Fin ([a, b].length - 1)) := ⟨d⟩
      have : (Fintype.card (Fin N × Fin ([a, b].length - 1)) : ℝ) ≠ 0 := by
        exact_mod_cast Fintype.card_ne_zero
      positivity)
    rw [step_volume_self, if_neg hne]
    simp only [ratio]
    rw [hlp _ hmem σ hσ]; simp
  · rw [step_volume _ _ _ _ _ _ hst, if_neg hne]; simp

theorem local_kpow_parity (a b : Int) (hab : a < b) (N : Nat) (hN : 0 < N) (S : Finset (List Int))
    (hS : ∀ σ, σ ∈ S ↔ σ.length = N ∧ ∀ v ∈ σ, v ∈ [a, b]) (lp : List Int → ℝ)
    (hlp : ∀ σ ∈ S, ∀ τ ∈ S, lp σ = lp τ) (n : Nat) : ∀ σ ∈ S, ∀ τ,
    (parity b σ + parity b τ + n) % 2 = 1 → kpow S (localKernel [a, b] N lp) n σ τ = 0 := by
  induction n with
  | zero =>
    intro σ _ τ h
    refine if_neg ?_
    rintro rfl
    omega
  | succ n ih =>
    intro σ hσ τ h
    refine Finset.sum_eq_zero fun ρ hρ => ?_
    by_cases h1 : (parity b σ + parity b ρ) % 2 = 0
    · rw [local_kernel_parity a b hab N hN S hS lp hlp σ ρ hσ h1, zero_mul]
    · rw [ih ρ hρ τ (by omega), mul_zero]

/-- Two local values (spins 1/2, qubits, hard-core bosons), a wavefunction of constant modulus and an even
    number of sweeps — the default is the number of sites: no sample ever has the other parity of up spins
    than the start of its chain. -/
theorem C203_parity_refuted (a b : Int) (hab : a < b) (N : Nat) (hN : 0 < N) (S : Finset (List Int))
    (hS : ∀ σ, σ ∈ S ↔ σ.length = N ∧ ∀ v ∈ σ, v ∈ [a, b]) (pow : Nat) (logPsi : List Int → ℝ)
    (hlp : ∀ σ ∈ S, ∀ τ ∈ S, pow * logPsi σ = pow * logPsi τ) (nSweeps : Nat) (hn : nSweeps % 2 = 0) :
    let P := kpow S (localKernel [a, b] N fun σ => pow * logPsi σ) nSweeps
    (∀ t, ∀ σ ∈ S, ∀ τ ∈ S, σ.count b % 2 ≠ τ.count b % 2 → kpow S P t σ τ = 0) ∧
      ¬ Irreducible S P ∧ ¬ AverageConverges S (fun σ => Real.exp (logPsi σ) ^ pow) P ∧
      ¬ Converges S (fun σ => Real.exp (logPsi σ) ^ pow) P := by
  have hzero : ∀ t, ∀ σ ∈ S, ∀ τ ∈ S, σ.count b % 2 ≠ τ.count b % 2 →
      kpow S (kpow S (localKernel [a, b] N fun σ => pow * logPsi σ) nSweeps) t σ τ = 0 := by
    intro t σ hσ τ _ h
    rw [kpow_mul nSweeps t σ hσ τ]
    refine local_kpow_parity a b hab N hN S hS _ hlp _ σ hσ τ ?_
    have : nSweeps * t % 2 = 0 := by rw [Nat.mul_mod, hn]; simp
    simp only [parity]
    omega
  obtain ⟨σ, hσ, τ, hτ, hne⟩ : ∃ σ ∈ S, ∃ τ ∈ S, σ.count b % 2 ≠ τ.count b % 2 := by
    refine ⟨List.replicate N a, (hS _).2 ⟨by simp, fun v hv => by simp [List.eq_of_mem_replicate hv]⟩,
      localNumpyRow [a, b] 0 0 (List.replicate N a), ?_, ?_⟩
    · refine (hS _).2 ⟨by simp [localNumpyRow], fun v hv => ?_⟩
      rcases List.mem_or_eq_of_mem_set hv with h | h
      · simp [List.eq_of_mem_replicate h]
      · rw [h, show (List.replicate N a).getD 0 0 = a by simp [hN]]
        simp [otherLocal]
    · have := local_flip_parity a b hab (List.replicate N a)
        (fun v hv => by simp [List.eq_of_mem_replicate hv]) 0 (by simpa using hN)
      simp only [parity] at this
      omega
  have hp : ∀ σ ∈ S, 0 < Real.exp (logPsi σ) ^ pow := fun _ _ => by positivity
  have hlim : Real.exp (logPsi τ) ^ pow / ∑ z ∈ S, Real.exp (logPsi z) ^ pow ≠ 0 :=
    (div_pos (hp τ hτ) (Finset.sum_pos hp ⟨σ, hσ⟩)).ne'
  refine ⟨hzero, fun h => ?_, fun h => ?_, fun h => ?_⟩
  · obtain ⟨t, ht⟩ := h σ hσ τ hτ
    rw [hzero t σ hσ τ hτ hne] at ht
    exact lt_irrefl _ ht
  · have h1 := h σ hσ τ hτ
    simp only [fun t => hzero t σ hσ τ hτ hne, Finset.sum_const_zero, zero_div] at h1
    exact hlim (tendsto_nhds_unique h1 tendsto_const_nhds)
  · have h1 := h σ hσ τ hτ
    simp only [fun t => hzero t σ hσ τ hτ hne] at h1
    exact hlim (tendsto_nhds_unique h1 tendsto_const_nhds)

/-- The exact condition for local moves: the fractions of the samples converge to `|psi|^pow` if and only if
    some pass is made and there are three or more local values, or the modulus varies, or the number of
    sweeps is odd. -/
theorem C203_local_partial (ls : List Int) (hs : ls.Pairwise (· < ·)) (h2 : 2 ≤ ls.length) (N : Nat)
    (hN : 0 < N) (S : Finset (List Int)) (hS : ∀ σ, σ ∈ S ↔ σ.length = N ∧ ∀ v ∈ σ, v ∈ ls)
    (pow : Nat) (logPsi : List Int → ℝ) (nSweeps : Nat) :
    AverageConverges S (fun σ => Real.exp (logPsi σ) ^ pow)
        (kpow S (localKernel ls N fun σ => pow * logPsi σ) nSweeps) ↔
      nSweeps ≠ 0 ∧ (3 ≤ ls.length ∨ (pow ≠ 0 ∧ ∃ σ ∈ S, ∃ τ ∈ S, logPsi σ ≠ logPsi τ) ∨
        nSweeps % 2 = 1) := by
  have hp : ∀ σ ∈ S, 0 < Real.exp (logPsi σ) ^ pow := fun _ _ => by positivity
  constructor
  · intro h
    constructor
    · rintro rfl
      obtain ⟨σ, hσ, τ, hτ, hne⟩ : ∃ σ ∈ S, ∃ τ ∈ S, σ ≠ τ := by
        refine ⟨List.replicate N (ls[0]'(by omega)), (hS _).2 ⟨by simp, fun v hv => by
          rw [List.eq_of_mem_replicate hv]; exact List.getElem_mem _⟩,
          List.replicate N (ls[1]'(by omega)), (hS _).2 ⟨by simp, fun v hv => by
          rw [List.eq_of_mem_replicate hv]; exact List.getElem_mem _⟩, fun e => ?_⟩
        have e' := congrArg (fun l : List Int => l[0]?) e
        simp only [List.getElem?_replicate, hN, if_true, Option.some.injEq] at e'
        have := List.pairwise_iff_getElem.1 hs 0 1 (by omega) (by omega) (by omega)
        omega
      have hz : ∀ t, kpow S (kpow S (localKernel ls N fun σ => pow * logPsi σ) 0) t σ τ = 0 := by
        intro t
        rw [kpow_mul 0 t σ hσ τ, Nat.zero_mul]
        simp [kpow, hne]
      have h1 := h σ hσ τ hτ
      simp only [hz, Finset.sum_const_zero, zero_div] at h1
      exact (div_pos (hp τ hτ) (Finset.sum_pos hp ⟨σ, hσ⟩)).ne'
        (tendsto_nhds_unique h1 tendsto_const_nhds)
    · by_contra hc
      push Not at hc
      obtain ⟨h3, hconst, hodd⟩ := hc
      obtain ⟨a, b, rfl⟩ : ∃ a b, ls = [a, b] := by
        match ls, h2, h3 with
        | [a, b], _, _ => exact ⟨a, b, rfl⟩
        | _ :: _ :: _ :: _, _, h3 => simp at h3; omega
      have hab : a < b := by simpa using hs
      refine (C203_parity_refuted a b hab N hN S hS pow logPsi (fun σ hσ τ hτ => ?_) nSweeps
        (by omega)).2.2.1 h
      by_cases hp0 : pow = 0
      · subst hp0; simp
      · rw [hconst hp0 σ hσ τ hτ]
  · rintro ⟨h0, h⟩
    rcases h with h | h | h
    · have hc := C202_local_converges ls hs h2 N hN S hS pow logPsi (Or.inl h) nSweeps (by omega)
      obtain ⟨k1, _, k3⟩ := C44_local ls hs h2 N hN S hS pow logPsi nSweeps
      exact averageConverges_of_irreducible k1 k3 hp (hc.irreducible hp)
    · have hc := C202_local_converges ls hs h2 N hN S hS pow logPsi (Or.inr h) nSweeps (by omega)
      obtain ⟨k1, _, k3⟩ := C44_local ls hs h2 N hN S hS pow logPsi nSweeps
      exact averageConverges_of_irreducible k1 k3 hp (hc.irreducible hp)
    · exact (C202_local_odd ls hs h2 N hN S hS pow logPsi nSweeps h).2.2

/-- Exchange moves: whatever the wavefunction and the number of sweeps, a sample is a rearrangement of the
    start of its chain. On bosons with a fixed total number, `[1, 1]` is not reached from `[2, 0]`. -/
theorem C203_exchange_refuted (clusters : List (Int × Int)) (N : Nat)
    (hcl : ∀ c ∈ clusters, (-(N : Int) ≤ c.1 ∧ c.1 < N) ∧ (-(N : Int) ≤ c.2 ∧ c.2 < N))
    (S : Finset (List Int)) (hlen : ∀ σ ∈ S, σ.length = N) (lp : List Int → ℝ) (n : Nat) :
    ∀ σ ∈ S, ∀ τ, ¬ τ.Perm σ → kpow S (exchangeKernel clusters lp) n σ τ = 0 := by
  have hone : ∀ σ ∈ S, ∀ τ, ¬ τ.Perm σ → exchangeKernel clusters lp σ τ = 0 := by
    intro σ hσ τ h
    refine Finset.sum_eq_zero fun d _ => ?_
    have hc := hcl _ (List.getElem_mem d.2)
    have hl := hlen σ hσ
    have hne : σ ≠ τ := fun e => h (e ▸ List.Perm.refl _)
    rw [step_volume _ _ _ _ _ _ hne, if_neg, mul_zero]
    intro e
    exact h (e ▸ C45_perm σ _ _ (by rw [hl]; exact hc.1) (by rw [hl]; exact hc.2))
  induction n with
  | zero =>
    intro σ _ τ h
    refine if_neg ?_
    rintro rfl
    exact h (List.Perm.refl _)
  | succ n ih =>
    intro σ hσ τ h
    refine Finset.sum_eq_zero fun ρ hρ => ?_
    by_cases h1 : ρ.Perm σ
    · rw [ih ρ hρ τ (fun h2 => h (h2.trans h1)), mul_zero]
    · rw [hone σ hσ ρ h1, zero_mul]


/-! #### the jax sampler itself -/

theorem prod_set_neg (σ : List Int) (i : Nat) (hi : i < σ.length) :
    (σ.set i (-σ[i])).prod = -σ.prod := by
  induction σ generalizing i with
  | nil => simp at hi
  | cons x σ ih =>
    cases i with
    | zero => simp
    | succ i => simp only [List.set_cons_succ, List.prod_cons, List.getElem_cons_succ]; rw [ih i (by simpa using hi)]; ring

section jaxloop
variable {K S' : Type}

/-- one pass of the loop with spin-1/2 flips on a constant modulus: every row's product changes sign. -/
theorem sweep_spin_half (s : Sampler (List Int) ℝ K S') (hexp : s.exp = Real.exp)
    (hconst : ∀ x y, s.logPsi x = s.logPsi y) (N : Nat)
    (sites : K → List Nat) (draws : K → List Verif.Flip.Draw)
    (hrule : ∀ rs k σ, s.rule.transition rs k σ
      = localTransition (Verif.Flip.flipAt Verif.Flip.spinHalfLocal) (sites k) (draws k) σ)
    (hsites : ∀ k, (sites k).length = s.nChainsPerRank ∧ ∀ i ∈ sites k, i < N)
    (hdraws : ∀ k, (draws k).length = s.nChainsPerRank)
    (hu : ∀ k n, (s.rng.uniform k n).length = n ∧ ∀ u ∈ s.rng.uniform k n, 0 ≤ u ∧ u < 1)
    (rs : S') (c : Scope (List Int) ℝ K) (hc : c.σ.length = s.nChainsPerRank)
    (hrow : ∀ x ∈ c.σ, x.length = N)
    (hcache : c.logProb = c.σ.map (fun z => s.pow * s.logPsi z)) :
    (sweep s rs c).σ.length = s.nChainsPerRank ∧ (∀ x ∈ (sweep s rs c).σ, x.length = N) ∧
      (sweep s rs c).σ.map List.prod = c.σ.map fun x => -x.prod := by
  set k := (s.rng.split3 c.key).2.1 with hk
  have hrows : ∀ (i : Nat) (x : List Int), c.σ[i]? = some x → ∃ y, y.length = N ∧ y.prod = -x.prod ∧
      (sweep s rs c).σ[i]? = some y := by
    intro i x hx
    have hi : i < s.nChainsPerRank := by
      rw [← hc]; exact (List.getElem?_eq_some_iff.1 hx).1
    have hxN := hrow x (List.mem_of_getElem? hx)
    have h1 : i < (sites k).length := by rw [(hsites k).1]; exact hi
    have h2 : i < (draws k).length := by rw [hdraws k]; exact hi
    have hs := (hsites k).2 _ (List.getElem_mem h1)
    have h3 : i < (s.rng.uniform (s.rng.split3 c.key).2.2 s.nChainsPerRank).length := by
      rw [(hu _ _).1]; exact hi
    have hy : (s.rule.transition rs k c.σ).1[i]? = some
        (Verif.Flip.flipAt Verif.Flip.spinHalfLocal (draws k)[i] x (((sites k)[i] : Nat) : Int)).1 := by
      rw [hrule, localTransition]
      simp only [List.getElem?_zipWith, hx]
      rw [show ((sites k).zip (draws k))[i]? = some ((sites k)[i], (draws k)[i]) by
        rw [List.getElem?_zip_eq_some]; exact ⟨List.getElem?_eq_getElem h1, List.getElem?_eq_getElem h2⟩]
    have hflip : (Verif.Flip.flipAt Verif.Flip.spinHalfLocal (draws k)[i] x
        (((sites k)[i] : Nat) : Int)).1 = x.set (sites k)[i] (-(x[(sites k)[i]]'(by omega))) := by
      simp only [Verif.Flip.flipAt, Verif.Flip.spinHalfLocal]
      rw [Verif.Flip.jaxGet_nat x _ (by omega), Verif.Flip.jaxSet_nat x _ _ (by omega)]
    have := C44_sweep_row s rs c hcache i x _ _ none hx hy (by rw [← hk, hrule]; rfl)
      (List.getElem?_eq_getElem h3)
    refine ⟨_, ?_, ?_, this⟩
    all_goals
      have hlt := ((hu _ _).2 _ (List.getElem_mem h3)).2
      simp only [moveOne, acceptOne, hexp, hconst _ x, sub_self, Real.exp_zero, hlt, decide_true, if_true]
      rw [hflip]
    · simpa using hxN
    · exact prod_set_neg x _ _
  have hlen : (sweep s rs c).σ.length = s.nChainsPerRank := by
    have hle : (sweep s rs c).σ.length ≤ c.σ.length := by
      simp only [sweep, whereRows, List.length_zipWith, List.length_zip]; omega
    rcases Nat.lt_or_ge (sweep s rs c).σ.length c.σ.length with h | h
    · obtain ⟨y, _, _, e⟩ := hrows _ _ (List.getElem?_eq_getElem h)
      rw [List.getElem?_eq_none (le_refl _)] at e
      exact absurd e (by simp)
    · omega
  refine ⟨hlen, fun x hx => ?_, ?_⟩
  · obtain ⟨i, hi, rfl⟩ := List.getElem_of_mem hx
    obtain ⟨y, h1, _, e⟩ := hrows i _ (List.getElem?_eq_getElem (by omega))
    rw [List.getElem?_eq_getElem hi] at e
    rw [Option.some.inj e, h1]
  · apply List.ext_getElem?
    intro i
    rw [List.getElem?_map, List.getElem?_map]
    cases h : c.σ[i]? with
    | none =>
      rw [List.getElem?_eq_none_iff] at h
      rw [List.getElem?_eq_none (by omega)]; rfl
    | some x =>
      obtain ⟨y, _, h2, e⟩ := hrows i x h
      rw [e]; simp [h2]

/-- The sampler's own loop: with spins 1/2, a constant modulus and an even `n_sweeps`, for all draws the
    product of the spins of every chain is the same in every sample. -/
theorem C203_sampler_refuted (s : Sampler (List Int) ℝ K S') (hexp : s.exp = Real.exp)
    (hconst : ∀ x y, s.logPsi x = s.logPsi y) (N : Nat)
    (sites : K → List Nat) (draws : K → List Verif.Flip.Draw)
    (hrule : ∀ rs k σ, s.rule.transition rs k σ
      = localTransition (Verif.Flip.flipAt Verif.Flip.spinHalfLocal) (sites k) (draws k) σ)
    (hsites : ∀ k, (sites k).length = s.nChainsPerRank ∧ ∀ i ∈ sites k, i < N)
    (hdraws : ∀ k, (draws k).length = s.nChainsPerRank)
    (hu : ∀ k n, (s.rng.uniform k n).length = n ∧ ∀ u ∈ s.rng.uniform k n, 0 ≤ u ∧ u < 1)
    (heven : s.nSweeps % 2 = 0) (st : State (List Int) K S') (hst : st.σ.length = s.nChainsPerRank)
    (hrow : ∀ x ∈ st.σ, x.length = N) (n : Nat) :
    ∀ a ∈ (scanChain (sampleNext s) n st).1, a.map List.prod = st.σ.map List.prod := by
  have hsweeps : ∀ m rs c, c.σ.length = s.nChainsPerRank → (∀ x ∈ c.σ, x.length = N) →
      c.logProb = c.σ.map (fun z => s.pow * s.logPsi z) →
      (sweeps s rs m c).σ.length = s.nChainsPerRank ∧ (∀ x ∈ (sweeps s rs m c).σ, x.length = N) ∧
      (sweeps s rs m c).σ.map List.prod = c.σ.map fun x => (-1) ^ m * x.prod := by
    intro m
    induction m with
    | zero => intro rs c h1 h2 _; refine ⟨h1, h2, ?_⟩; simp [sweeps]
    | succ m ih =>
      intro rs c h1 h2 h3
      obtain ⟨k1, k2, k3⟩ := sweep_spin_half s hexp hconst N sites draws hrule hsites hdraws hu rs c h1 h2 h3
      obtain ⟨j1, j2, j3⟩ := ih rs (sweep s rs c) k1 k2 (C44_cache s rs 1 c h3)
      refine ⟨j1, j2, j3.trans ?_⟩
      rw [show (fun x : List Int => (-1) ^ m * x.prod) = (fun p : Int => (-1) ^ m * p) ∘ List.prod from rfl,
        ← List.map_map, k3, List.map_map]
      refine List.map_congr_left fun x _ => ?_
      simp only [Function.comp]
      rw [pow_succ]; ring
  induction n generalizing st with
  | zero => intro a ha; simp [scanChain] at ha
  | succ n ih =>
    obtain ⟨k1, k2, k3⟩ := hsweeps s.nSweeps st.ruleState (startScope s st) hst hrow rfl
    have k4 : (sampleNext s st).2.map List.prod = st.σ.map List.prod := by
      refine k3.trans (List.map_congr_left fun x _ => ?_)
      rw [Even.neg_one_pow (Nat.even_iff.2 heven), one_mul]
    intro a ha
    simp only [scanChain, List.mem_cons] at ha
    rcases ha with rfl | ha
    · exact k4
    · exact (ih (sampleNext s st).1 k1 k2 a ha).trans k4

end jaxloop

/-! ### the hypotheses are met -/

/-- the four configurations of two spins. -/
def twoSpins : Finset (List Int) := {[-1, -1], [-1, 1], [1, -1], [1, 1]}

theorem twoSpins_all (σ : List Int) : σ ∈ twoSpins ↔ σ.length = 2 ∧ ∀ v ∈ σ, v ∈ [(-1 : Int), 1] := by
  constructor
  · intro h
    simp only [twoSpins, Finset.mem_insert, Finset.mem_singleton] at h
    rcases h with rfl | rfl | rfl | rfl <;> simp
  · rintro ⟨h1, h2⟩
    match σ, h1 with
    | [a, b], _ =>
      simp only [List.mem_cons, List.not_mem_nil, or_false, forall_eq_or_imp, forall_eq] at h2
      obtain ⟨ha | ha, hb | hb⟩ := h2 <;> subst ha hb <;> decide

example : Converges twoSpins (fun σ => Real.exp (σ.sum : ℝ) ^ 2)
    (kpow twoSpins (localKernel [-1, 1] 2 fun σ => (2 : Nat) * (σ.sum : ℝ)) 2) :=
  C202_local_converges [-1, 1] (by decide) (by decide) 2 (by decide) twoSpins twoSpins_all 2
    (fun σ => (σ.sum : ℝ)) (Or.inr ⟨by decide, [1, 1], by decide, [-1, -1], by decide, by norm_num⟩) 2
    (by decide)

example : ¬ AverageConverges twoSpins (fun σ => Real.exp ((fun _ => 0 : List Int → ℝ) σ) ^ 2)
    (kpow twoSpins (localKernel [-1, 1] 2 fun σ => (2 : Nat) * (fun _ => 0 : List Int → ℝ) σ) 2) :=
  (C203_parity_refuted (-1) 1 (by decide) 2 (by decide) twoSpins twoSpins_all 2 (fun _ => 0)
    (fun _ _ _ _ => rfl) 2 rfl).2.2.1

theorem line3_connected : SitesConnected [(0, 1), (1, 2)] 3 := by
  have e01 : ∀ a b, (a = 0 ∧ b = 1 ∨ a = 1 ∧ b = 0 ∨ a = 1 ∧ b = 2 ∨ a = 2 ∧ b = 1) →
      a < 3 ∧ b < 3 ∧ Joined [(0, 1), (1, 2)] a b := by
    rintro a b (⟨rfl, rfl⟩ | ⟨rfl, rfl⟩ | ⟨rfl, rfl⟩ | ⟨rfl, rfl⟩) <;> simp [Joined]
  intro i hi j hj
  have to1 : ∀ i, i < 3 → Relation.ReflTransGen
      (fun a b => a < 3 ∧ b < 3 ∧ Joined [(0, 1), (1, 2)] a b) i 1 := by
    intro i hi
    rcases (by omega : i = 0 ∨ i = 1 ∨ i = 2) with rfl | rfl | rfl
    · exact .single (e01 0 1 (by simp))
    · exact .refl
    · exact .single (e01 2 1 (by simp))
  refine (to1 i hi).trans ?_
  rcases (by omega : j = 0 ∨ j = 1 ∨ j = 2) with rfl | rfl | rfl
  · exact .single (e01 1 0 (by simp))
  · exact .refl
  · exact .single (e01 1 2 (by simp))

example : ¬ List.Nodup [(1 : Int), 1, -1] := by decide
example : ¬ List.Perm [(1 : Int), 1] [2, 0] := by decide


/-- an operator on one spin with a diagonal and an off-diagonal element. -/
example (logPsi : Bool → ℝ) :
    ∀ nSweeps, 0 < nSweeps → Converges (univ : Finset Bool) (fun x => Real.exp (logPsi x) ^ 2)
      (kpow univ (kernel (hamW (fun x : Bool => [x, !x]) 2) (step (fun x => (2 : Nat) * logPsi x)
        (hamProp (fun x : Bool => [x, !x]) 2) (hamCorr (fun x : Bool => [x, !x]) 2))) nSweeps) :=
  (C202_hamiltonian (fun x : Bool => [x, !x]) 2 univ (fun _ _ => le_refl _) (fun _ _ => by simp)
    (fun _ _ _ _ => mem_univ _) (by decide)
    (fun x _ y _ => by
      refine .single ?_
      cases x <;> cases y <;> decide) 2 logPsi).2.2.2 ⟨true, mem_univ _, by decide⟩

/-- a sampler with one chain of two spins, for `C203_sampler_refuted`. -/
noncomputable def twoSpinSampler : Sampler (List Int) ℝ Nat Unit where
  rng := { split2 := fun k => (k, k + 1), split3 := fun k => (k + 1, k, k), uniform := fun _ n => List.replicate n 0 }
  rule :=
    { initState := fun _ => ()
      reset := id
      transition := fun _ k σ => localTransition (Verif.Flip.flipAt Verif.Flip.spinHalfLocal) [k % 2]
        [{ uniform := 0, randint := fun _ => 0 }] σ
      randomState := fun _ _ => [[1, 1]] }
  exp := Real.exp
  logPsi := fun _ => 0
  pow := 2
  nSweeps := 2
  nChainsPerRank := 1
  nNodes := 1
  resetChains := false
  zeroRow := [0, 0]

example (n : Nat) : ∀ a ∈ (scanChain (sampleNext twoSpinSampler) n
      { σ := [[1, -1]], rng := 0, ruleState := () }).1, a.map List.prod = [-1] :=
  C203_sampler_refuted twoSpinSampler rfl (fun _ _ => rfl) 2 (fun k => [k % 2])
    (fun _ => [{ uniform := 0, randint := fun _ => 0 }]) (fun _ _ _ => rfl)
    (fun k => ⟨rfl, fun i hi => by simp only [List.mem_singleton] at hi; omega⟩) (fun _ => rfl)
    (fun _ n => ⟨by simp [twoSpinSampler], fun u hu => by
      rw [List.eq_of_mem_replicate hu]; norm_num⟩) rfl
    { σ := [[1, -1]], rng := 0, ruleState := () } rfl (by simp) n

end Verif.Metro
