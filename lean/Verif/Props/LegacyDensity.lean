import Verif.Props.LegacyJastrow
import Mathlib.Analysis.SpecialFunctions.Complex.LogDeriv
import Mathlib.Analysis.SpecialFunctions.Pow.Real
import Mathlib.Algebra.BigOperators.Field

/-! C177, C178: multi-valued, phase and density machines, and the methods of all machines (`netket/legacy/machine`). -/

set_option linter.unusedVariables false

namespace Verif.LegacyMachine
open Verif.Hilbert (Err)
open Verif.Symm (IsPermGroup divmod flat_lt)
open Finset

/-! ## RbmMultiVal -/

/-- C177: the encoding of `RbmMultiVal` has one block per site, `1` at the local state of the site and `-1` elsewhere; every row of the batch is
    encoded separately. -/
theorem C177_one_hot (B N L : Nat) (vec : Nat → Nat → Int) (states : Nat → Int) (b i l : Nat) (hb : b < B) (hi : i < N) (hl : l < L) :
    oneHot B N L vec states b (i * L + l) = if vec b i = states l then 1 else -1 := by
  have e0 : b * (N * L) + (i * L + l) = (b * N + i) * L + l := by ring
  obtain ⟨e1, e2⟩ := divmod L (b * N + i) l hl
  obtain ⟨e3, e4⟩ := divmod N b i hi
  unfold oneHot
  simp only [e0, e1, e2]
  rw [Nat.div_add_mod' (b * N + i) B, e3, e4]
  norm_num

/-- C177: the encoding determines the configuration, if every site is in one of the local states. -/
theorem C177_one_hot_injective (B N L : Nat) (vec vec' : Nat → Nat → Int) (states : Nat → Int) (b b' : Nat) (hb : b < B) (hb' : b' < B)
    (hv : ∀ i < N, ∃ l < L, vec b i = states l)
    (h : ∀ q < N * L, oneHot B N L vec states b q = oneHot B N L vec' states b' q) : ∀ i < N, vec b i = vec' b' i := by
  intro i hi
  obtain ⟨l, hl, e⟩ := hv i hi
  have := h (i * L + l) (flat_lt hi hl)
  rw [C177_one_hot B N L vec states b i l hb hi hl, C177_one_hot B N L vec' states b' i l hb' hi hl, if_pos e] at this
  by_cases e' : vec' b' i = states l
  · rw [e, e']
  · rw [if_neg e'] at this
    norm_num at this

example := C177_one_hot_injective 2 2 3 (fun b i => if b = 1 ∧ i = 1 then 2 else 0) (fun _ i => if i = 1 then 2 else 0) (fun l => l) 1 0 (by decide) (by decide)
  (by decide) (by
    intro q hq
    obtain ⟨i, l, hi, hl, rfl⟩ : ∃ i l, i < 2 ∧ l < 3 ∧ q = i * 3 + l := ⟨q / 3, q % 3, by omega, by omega, by omega⟩
    rw [C177_one_hot _ _ _ _ _ _ _ _ (by decide) hi hl, C177_one_hot _ _ _ _ _ _ _ _ (by decide) hi hl]
    simp)

theorem extend_group (N L P : Nat) (perm : Nat → Nat → Nat) (G : IsPermGroup N P perm) (hL : 0 < L) : IsPermGroup (N * L) P (extendPerm L perm) := by
  have hdiv : ∀ q < N * L, q / L < N := fun q hq => Nat.div_lt_of_lt_mul (by rw [Nat.mul_comm]; exact hq)
  have hmod : ∀ q, q % L < L := fun q => Nat.mod_lt q hL
  refine ⟨fun g hg q hq => ?_, fun g hg q hq r hr h => ?_, fun g hg h hh e => ?_, fun g hg h hh => ?_⟩
  · exact flat_lt (G.lt g hg _ (hdiv q hq)) (hmod q)
  · unfold extendPerm at h
    obtain ⟨a1, a2⟩ := divmod L (perm g (q / L)) (q % L) (hmod q)
    obtain ⟨b1, b2⟩ := divmod L (perm g (r / L)) (r % L) (hmod r)
    have h1 : perm g (q / L) = perm g (r / L) := by rw [← a1, ← b1, h]
    have h2 : q % L = r % L := by rw [← a2, ← b2, h]
    have h3 := G.inj g hg _ (hdiv q hq) _ (hdiv r hr) h1
    rw [← Nat.div_add_mod q L, ← Nat.div_add_mod r L, h2, h3]
  · refine G.nodup g hg h hh fun i hi => ?_
    have hq : i * L + 0 < N * L := flat_lt hi hL
    have := e (i * L + 0) hq
    unfold extendPerm at this
    obtain ⟨c1, c2⟩ := divmod L i 0 hL
    rw [c1, c2] at this
    simp only [Nat.add_zero] at this
    exact Nat.eq_of_mul_eq_mul_right hL this
  · obtain ⟨k, hk, hc⟩ := G.closed g hg h hh
    refine ⟨k, hk, fun q hq => ?_⟩
    unfold extendPerm
    obtain ⟨c1, c2⟩ := divmod L (perm h (q / L)) (q % L) (hmod q)
    rw [c1, c2, hc _ (hdiv q hq)]

/-- C177: `RbmMultiVal` with a group of automorphisms of the sites: `log_val` is the same for symmetry-related configurations. -/
theorem C177_multi_invariant (N L P : Nat) (perm : Nat → Nat → Nat) (G : IsPermGroup N P perm) (hL : 0 < L) (c : Cfg) (hn : c.n = N * L)
    (hs : c.sym = some (P, extendPerm L perm)) (hm : c.m = c.alpha * P) (p : List ℂ) (B : Nat) (vec : Nat → Nat → Int) (states : Nat → Int)
    (b : Nat) (hb : b < B) (h : Nat) (hh : h < P) :
    logVal c p (oneHot B N L (fun b i => vec b (perm h i)) states b) = logVal c p (oneHot B N L vec states b) := by
  have G' := extend_group N L P perm G hL
  rw [← hn] at G'
  rw [← C177_invariant c P (extendPerm L perm) hs hm G' p (oneHot B N L vec states b) h hh]
  have hpt : ∀ i < c.n, oneHot B N L (fun b i => vec b (perm h i)) states b i = oneHot B N L vec states b (extendPerm L perm h i) := by
    intro q hq
    rw [hn] at hq
    have hd : q / L < N := Nat.div_lt_of_lt_mul (by rw [Nat.mul_comm]; exact hq)
    have hmod : q % L < L := Nat.mod_lt q hL
    conv_lhs => rw [← Nat.div_add_mod' q L]
    unfold extendPerm
    rw [C177_one_hot B N L _ states b _ _ hb hd hmod, C177_one_hot B N L vec states b _ _ hb (G.lt h hh _ hd) hmod]
  have hth : ∀ b' : List ℂ, ∀ y z : Nat → ℂ, (∀ i < c.n, y i = z i) → logValBuf c b' y = logValBuf c b' z := by
    intro b' y z e
    have et : ∀ j, theta c b' y j = theta c b' z j := by
      intro j
      unfold theta
      congr 1
      exact sum_congr rfl fun i hi => by rw [e i (mem_range.1 hi)]
    unfold logValBuf
    have ev : ∑ i ∈ range c.n, y i * ent b' i = ∑ i ∈ range c.n, z i * ent b' i :=
      sum_congr rfl fun i hi => by rw [e i (mem_range.1 hi)]
    simp only [et, ev]
  unfold logVal
  rw [hth (bare c p) _ _ hpt]

/-- C177: the table of automorphisms is extended to the blocks of the encoding: every block moves as its site does, with the order inside kept. -/
theorem C177_multi_automorphisms (size L r c : Nat) (p : Nat → Nat → Nat) (hr : 0 < r) (hL : 0 < L) :
    (c = size → ∃ p', automMulti size L (.table r c p) = .ok (some (r, size * L, p'))
      ∧ ∀ g i l, l < L → p' g (i * L + l) = p g i * L + l)
    ∧ (c ≠ size → automMulti size L (.table r c p) = .error .runtimeError)
    ∧ automMulti size L .none = .ok none := by
  refine ⟨fun h => ⟨extendPerm L p, ?_, fun g i l hl => ?_⟩, fun h => ?_, rfl⟩
  · subst h; unfold automMulti; simp only; rw [if_neg (by simp; omega)]
  · unfold extendPerm
    obtain ⟨e1, e2⟩ := divmod L i l hl
    rw [e1, e2]
  · unfold automMulti; simp only; rw [if_pos (Or.inr h)]

/-- C177: a table of automorphisms of `RbmSpin` is accepted as it is if it has a row and one column per site, and is a `RuntimeError` otherwise. -/
theorem C177_spin_automorphisms (size : Nat) (r c : Nat) (p : Nat → Nat → Nat) :
    (0 < r → c = size → automSpin size (.table r c p) = .ok (some (r, size, p)))
    ∧ (r = 0 ∨ c ≠ size → automSpin size (.table r c p) = .error .runtimeError)
    ∧ automSpin size .none = .ok none := by
  refine ⟨fun h1 h2 => ?_, fun h => ?_, rfl⟩
  · subst h2; unfold automSpin; simp only; rw [if_neg (by simp; omega)]
  · unfold automSpin; simp only; rw [if_pos h]

/-- C178: `automorphisms=False` is accepted by `RbmSpin` and rejected by `RbmMultiVal`. -/
theorem C178_multi_false_refuted (size L : Nat) :
    automSpin size .false = .ok none ∧ automMulti size L .false = .error .runtimeError := ⟨rfl, rfl⟩

/-! ## RbmSpinPhase -/

theorem ent_set_real (p : List ℂ) (hp : ∀ k, (ent p k).im = 0) (k : Nat) (hk : k < p.length) (t : ℝ) : ∀ r, (ent (p.set k (t : ℂ)) r).im = 0 := by
  intro r
  rw [ent_set p k hk]
  split
  · simp
  · exact hp r

theorem logVal_eq_log (c : Cfg) (p : List ℂ) (hp : ∀ k, (ent p k).im = 0) (x : Nat → ℂ) (hx : ∀ i, (x i).im = 0) :
    logVal c p x = Complex.log (amplitude c p x) ∧ amplitude c p x ∈ Complex.slitPlane := by
  have h1 : Complex.exp (logVal c p x) = amplitude c p x := by
    refine exp_logVal_bare c (bare c p) x fun j _ => ?_
    obtain ⟨r, e⟩ := theta_real c (bare c p) (bare_real c p hp) x hx j
    rw [e]; exact good_real r
  have h2 := C177_real_value c p hp x hx
  have h3 : logVal c p x = (((logVal c p x).re : ℝ) : ℂ) := Complex.ext (by simp) (by simpa using h2)
  constructor
  · rw [← h1, Complex.log_exp]
    · rw [h2]; linarith [Real.pi_pos]
    · rw [h2]; exact Real.pi_pos.le
  · rw [← h1, h3, ← Complex.ofReal_exp]
    exact Complex.ofReal_mem_slitPlane.2 (Real.exp_pos _)

/-- C177: for a real machine `der_log` is the gradient of `log_val` itself, along every real parameter, with no exceptions. -/
theorem C177_der_log_real (c : Cfg) (p : List ℂ) (hl : p.length = nPar c) (hp : ∀ k, (ent p k).im = 0) (x : Nat → ℂ) (hx : ∀ i, (x i).im = 0)
    (k : Nat) (hk : k < nPar c) :
    HasDerivAt (fun t : ℝ => logVal c (p.set k (t : ℂ)) x) (ent (derLog c p x) k) (ent p k).re := by
  have hkl : k < p.length := by omega
  have hre : (((ent p k).re : ℝ) : ℂ) = ent p k := Complex.ext (by simp) (by simpa using (hp k).symm)
  have h0 : ∀ j < c.m, Complex.cosh (theta c (bare c p) x j) ≠ 0 := by
    intro j _
    obtain ⟨r, e⟩ := theta_real c (bare c p) (bare_real c p hp) x hx j
    rw [e, ← Complex.ofReal_cosh]
    exact_mod_cast (Real.cosh_pos r).ne'
  have hd := C177_der_log c p hl x k hk h0
  rw [← hre] at hd
  have hd' := hd.comp_ofReal
  have hself : p.set k (((ent p k).re : ℝ) : ℂ) = p := by
    rw [hre]
    unfold ent
    rw [List.getD_eq_getElem?_getD, List.getElem?_eq_getElem hkl]
    simp
  have hsl := (logVal_eq_log c p hp x hx).2
  have hfun : (fun t : ℝ => logVal c (p.set k (t : ℂ)) x) = fun t : ℝ => Complex.log (amplitude c (p.set k (t : ℂ)) x) := by
    funext t
    exact (logVal_eq_log c _ (ent_set_real p hp k hkl t) x hx).1
  rw [hfun]
  have := hd'.clog_real (by rw [hself]; exact hsl)
  refine this.congr_deriv ?_
  rw [hself]
  exact mul_div_cancel_left₀ _ (Complex.slitPlane_ne_zero hsl)

/-- C177: `RbmSpinPhase`: the modulus is the amplitude of the first machine and the phase is the log-amplitude of the second. -/
theorem C177_phase (ca cp : Cfg) (pa pp : List ℂ) (ha : ∀ k, (ent pa k).im = 0) (hp : ∀ k, (ent pp k).im = 0) (x : Nat → ℂ)
    (hx : ∀ i, (x i).im = 0) :
    ((‖Complex.exp (phaseLogVal ca cp pa pp x)‖ : ℝ) : ℂ) = amplitude ca pa x
    ∧ ((Real.exp (phaseLogVal ca cp pa pp x).im : ℝ) : ℂ) = amplitude cp pp x := by
  have h1 := C177_real_value ca pa ha x hx
  have h2 := C177_real_value cp pp hp x hx
  have hz : ∀ z : ℂ, z.im = 0 → z = ((z.re : ℝ) : ℂ) := fun z h => Complex.ext (by simp) (by simpa using h)
  have e1 : (phaseLogVal ca cp pa pp x).re = (logVal ca pa x).re := by unfold phaseLogVal; simp [h2]
  have e2 : (phaseLogVal ca cp pa pp x).im = (logVal cp pp x).re := by unfold phaseLogVal; simp [h1]
  have ex : ∀ (c : Cfg) (p : List ℂ), (∀ k, (ent p k).im = 0) → Complex.exp (logVal c p x) = amplitude c p x := by
    intro c p h
    rw [(logVal_eq_log c p h x hx).1, Complex.exp_log (Complex.slitPlane_ne_zero (logVal_eq_log c p h x hx).2)]
  constructor
  · rw [Complex.norm_exp, e1, Complex.ofReal_exp, ← hz _ h1, ex ca pa ha]
  · rw [e2, Complex.ofReal_exp, ← hz _ h2, ex cp pp hp]

/-- C177: `der_log` of `RbmSpinPhase` is the gradient of its `log_val`, first along the parameters of the amplitude, then along those of the
    phase. -/
theorem C177_phase_der_log (ca cp : Cfg) (pa pp : List ℂ) (la : pa.length = nPar ca) (lp : pp.length = nPar cp) (ha : ∀ k, (ent pa k).im = 0)
    (hp : ∀ k, (ent pp k).im = 0) (x : Nat → ℂ) (hx : ∀ i, (x i).im = 0) :
    (phaseDerLog ca cp pa pp x).length = nPar ca + nPar cp
    ∧ (∀ k < nPar ca, HasDerivAt (fun t : ℝ => phaseLogVal ca cp (pa.set k (t : ℂ)) pp x) (ent (phaseDerLog ca cp pa pp x) k) (ent pa k).re)
    ∧ ∀ k < nPar cp, HasDerivAt (fun t : ℝ => phaseLogVal ca cp pa (pp.set k (t : ℂ)) x)
        (ent (phaseDerLog ca cp pa pp x) (nPar ca + k)) (ent pp k).re := by
  have l1 := C177_der_log_length ca pa x
  have l2 := C177_der_log_length cp pp x
  refine ⟨?_, fun k hk => ?_, fun k hk => ?_⟩
  · unfold phaseDerLog; rw [List.length_append, List.length_map, l1, l2]
  · have h := (C177_der_log_real ca pa la ha x hx k hk).add_const (Complex.I * logVal cp pp x)
    refine h.congr_deriv ?_
    unfold ent phaseDerLog
    rw [List.getD_append _ _ _ _ (by rw [l1]; exact hk)]
  · have h := ((C177_der_log_real cp pp lp hp x hx k hk).const_mul Complex.I).const_add (logVal ca pa x)
    refine h.congr_deriv ?_
    unfold ent phaseDerLog
    rw [List.getD_append_right _ _ _ _ (by rw [l1]; omega), l1, Nat.add_sub_cancel_left]
    simp only [List.getD_eq_getElem?_getD, List.getElem?_map]
    rw [List.getElem?_eq_getElem (by rw [l2]; exact hk)]
    simp [mul_comm]

/-- C177: assigning the parameters of `RbmSpinPhase` splits the vector into amplitude and phase parameters and stores the real parts. -/
theorem C177_phase_parameters (ca cp : Cfg) (ra : ca.real = true) (rp : cp.real = true) (s : List ℂ × List ℂ) (a b : List ℂ)
    (la : a.length = nPar ca) (lb : b.length = nPar cp) :
    phaseSet ca cp s (a ++ b) = ((a.map fun z => (z.re : ℂ), b.map fun z => (z.re : ℂ)), none) := by
  unfold phaseSet setParameters
  rw [List.take_append_of_le_length (by omega), List.take_of_length_le (by omega), List.drop_append, List.drop_of_length_le (by omega), la]
  simp [la, lb, ra, rp]

/-- C178: a vector which is too long or too short for the phase is rejected only after the amplitude has been replaced. -/
theorem C178_phase_parameters_refuted (ca cp : Cfg) (ra : ca.real = true) (s : List ℂ × List ℂ) (a b : List ℂ) (la : a.length = nPar ca)
    (lb : b.length ≠ nPar cp) : phaseSet ca cp s (a ++ b) = ((a.map fun z => (z.re : ℂ), s.2), some .valueError) := by
  unfold phaseSet setParameters
  rw [List.take_append_of_le_length (by omega), List.take_of_length_le (by omega), List.drop_append, List.drop_of_length_le (by omega), la]
  simp [la, lb, ra]

/-- C178: the specific arguments `alpha_a`, `alpha_p`, `n_hidden_a`, `n_hidden_p` are ignored when the general one is given, although the
    general one is documented as the default for them. -/
theorem C178_phase_args_refuted {α : Type} (g s : α) (h : g ≠ s) : phaseArg (some g) (some s) = some g ∧ phaseArg (some g) (some s) ≠ some s :=
  ⟨rfl, fun e => h (Option.some.inj e)⟩

example := C178_phase_args_refuted "graph" "symmetries" (by decide)

/-! ## Deviations of the RBM -/

/-- C178: a hidden unit with a purely imaginary input contributes the factor 1, whatever the input is; the documented factor is its cosine. -/
theorem C178_imaginary_refuted (y : ℝ) :
    Complex.exp (logCosh1 ((y : ℂ) * Complex.I)) = 1 ∧ Complex.cosh ((y : ℂ) * Complex.I) = Real.cos y := by
  constructor
  · have : ((y : ℂ) * Complex.I).re = 0 := by simp
    unfold logCosh1 sgn
    simp only [this, lt_irrefl, if_false, mul_zero]
    have := exp_logCosh1 0 (Or.inr rfl)
    unfold logCosh1 sgn at this
    simpa using this
  · rw [Complex.cosh_mul_I, Complex.ofReal_cos]

/-- C178: an array `out` of the caller receives the value without the visible biases. -/
theorem C178_out_refuted (c : Cfg) (hA : c.useA = true) (p : List ℂ) (x : Nat → ℂ) :
    (logValBuf c (bare c p) x).1 = logVal c p x - ∑ i ∈ range c.n, x i * ent (bare c p) i := by
  unfold logVal logValBuf
  simp [hA]

/-- C178: with automorphisms the argument `n_hidden` has no effect, contradictory or not. -/
theorem C178_n_hidden_refuted (rows cols size : Nat) (alpha : Option Alpha) (nh nh' : Option Int) :
    getHidden (some (rows, cols)) size nh alpha = getHidden (some (rows, cols)) size nh' alpha := rfl

/-! ## Methods of all machines -/

theorem foldl_max_le (r : List ℂ) (m : ℝ) : m ≤ r.foldl (fun (m : ℝ) (w : ℂ) => max m w.re) m := by
  induction r generalizing m with
  | nil => exact le_rfl
  | cons a r ih => exact le_trans (le_max_left _ _) (ih _)

/-- C177: `to_array` returns the amplitudes divided by their norm; the sum of their squared moduli is one. -/
theorem C177_to_array (lv : List ℂ) (h : lv ≠ []) : ∃ out, toArray true true lv = .ok out
    ∧ out = lv.map (fun z => Complex.exp z / (Real.sqrt (lv.map fun w => ‖Complex.exp w‖ ^ 2).sum : ℂ))
    ∧ (out.map fun z => ‖z‖ ^ 2).sum = 1 := by
  obtain ⟨M, hM⟩ : ∃ M, maxRe lv = .ok M := by
    cases lv with
    | nil => exact absurd rfl h
    | cons a r => exact ⟨_, rfl⟩
  set S := (lv.map fun w => ‖Complex.exp w‖ ^ 2).sum with hS
  have hpos : 0 < S := by
    rw [hS]
    apply List.sum_pos
    · intro x hx
      obtain ⟨w, _, rfl⟩ := List.mem_map.1 hx
      rw [Complex.norm_exp]; positivity
    · simpa using h
  have hsh : l2 (lv.map fun z => Complex.exp (z - M)) = Real.exp (-M) * Real.sqrt S := by
    unfold l2
    rw [show ((lv.map fun z => Complex.exp (z - M)).map fun z => ‖z‖ ^ 2).sum = Real.exp (-M) ^ 2 * S by
      rw [hS, ← List.sum_map_mul_left, List.map_map]
      congr 1
      refine List.map_congr_left fun z _ => ?_
      simp only [Function.comp, Complex.norm_exp, Complex.sub_re, Complex.ofReal_re]
      rw [← mul_pow, ← Real.exp_add]; ring_nf]
    rw [Real.sqrt_mul (by positivity), Real.sqrt_sq (Real.exp_pos _).le]
  have hout : (lv.map fun z => Complex.exp (z - M)).map (fun z => z / (l2 (lv.map fun z => Complex.exp (z - M)) : ℂ))
      = lv.map (fun z => Complex.exp z / (Real.sqrt S : ℂ)) := by
    rw [hsh, List.map_map]
    refine List.map_congr_left fun z _ => ?_
    simp only [Function.comp]
    rw [Complex.exp_sub, Complex.ofReal_mul, Complex.ofReal_exp, Complex.ofReal_neg, Complex.exp_neg]
    have := Complex.exp_ne_zero (M : ℂ)
    field_simp
  refine ⟨_, ?_, hout, ?_⟩
  · unfold toArray
    simp only [hM, if_true]
  · rw [hout, List.map_map]
    have : ((fun z : ℂ => ‖z‖ ^ 2) ∘ fun z => Complex.exp z / (Real.sqrt S : ℂ)) = fun z => S⁻¹ * ‖Complex.exp z‖ ^ 2 := by
      funext z
      simp only [Function.comp]
      rw [norm_div, div_pow, Complex.norm_real, Real.norm_of_nonneg (Real.sqrt_nonneg _), Real.sq_sqrt hpos.le, div_eq_inv_mul]
    rw [this, List.sum_map_mul_left, ← hS, inv_mul_cancel₀ hpos.ne']

/-- C178: without normalisation the amplitudes are divided by the exponential of the largest real part of their logarithms, so they are the
    amplitudes only if that number is zero. -/
theorem C178_to_array_refuted (lv : List ℂ) (h : lv ≠ []) : ∃ M : ℝ, toArray true false lv = .ok (lv.map fun z => Complex.exp z * Complex.exp (-M))
    ∧ (∃ z ∈ lv, z.re = M) ∧ (∀ z ∈ lv, z.re ≤ M)
    ∧ (toArray true false lv = .ok (lv.map fun z => Complex.exp z) ↔ M = 0) := by
  cases lv with
  | nil => exact absurd rfl h
  | cons a r =>
    set M := r.foldl (fun (m : ℝ) (w : ℂ) => max m w.re) a.re with hM
    have e : toArray true false (a :: r) = .ok ((a :: r).map fun z => Complex.exp z * Complex.exp (-M)) := by
      unfold toArray
      simp only [maxRe, if_true, Bool.false_eq_true, if_false]
      congr 1
      refine List.map_congr_left fun z _ => ?_
      rw [← Complex.exp_add, sub_eq_add_neg]
    refine ⟨M, e, ?_, ?_, ?_⟩
    · have : ∀ (r : List ℂ) (m : ℝ), r.foldl (fun (m : ℝ) (w : ℂ) => max m w.re) m = m ∨ ∃ z ∈ r, z.re = r.foldl (fun (m : ℝ) (w : ℂ) => max m w.re) m := by
        intro r
        induction r with
        | nil => intro m; exact Or.inl rfl
        | cons b r ih =>
          intro m
          simp only [List.foldl_cons]
          rcases ih (max m b.re) with h | ⟨z, hz, h⟩
          · rcases max_choice m b.re with h' | h'
            · left; rw [h, h']
            · right; exact ⟨b, List.mem_cons_self, by rw [h, h']⟩
          · exact Or.inr ⟨z, List.mem_cons_of_mem _ hz, h⟩
      rcases this r a.re with h | ⟨z, hz, h⟩
      · exact ⟨a, List.mem_cons_self, h.symm⟩
      · exact ⟨z, List.mem_cons_of_mem _ hz, h⟩
    · have : ∀ (r : List ℂ) (m : ℝ), ∀ z ∈ r, z.re ≤ r.foldl (fun (m : ℝ) (w : ℂ) => max m w.re) m := by
        intro r
        induction r with
        | nil => intro m z hz; simp at hz
        | cons b r ih =>
          intro m z hz
          simp only [List.foldl_cons]
          rcases List.mem_cons.1 hz with rfl | hz
          · exact le_trans (le_max_right _ _) (foldl_max_le r _)
          · exact ih _ z hz
      intro z hz
      rcases List.mem_cons.1 hz with rfl | hz
      · exact foldl_max_le r _
      · exact this r _ z hz
    · rw [e]
      constructor
      · intro h
        have h1 : Complex.exp a * Complex.exp (-M) = Complex.exp a := by
          have := congrArg (fun l : Except Err (List ℂ) => match l with | .ok (z :: _) => z | _ => 0) h
          simpa using this
        have h2 : Complex.exp (-M) = 1 := mul_left_cancel₀ (Complex.exp_ne_zero a) (by rw [h1, mul_one])
        rw [← Complex.ofReal_neg, ← Complex.ofReal_exp] at h2
        have h3 : Real.exp (-M) = 1 := by exact_mod_cast h2
        rw [Real.exp_eq_one_iff] at h3
        linarith
      · intro h
        rw [h]; simp

/-- C177: `log_norm` is the logarithm of the sum of the `order`-th powers of the moduli of the amplitudes. -/
theorem C177_log_norm (order : ℝ) (lv : List ℂ) (h : lv ≠ []) :
    logNorm true order lv = .ok (Real.log (lv.map fun z => ‖Complex.exp z‖ ^ order).sum) := by
  obtain ⟨M, hM⟩ : ∃ M, maxRe lv = .ok M := by
    cases lv with
    | nil => exact absurd rfl h
    | cons a r => exact ⟨_, rfl⟩
  unfold logNorm
  simp only [hM, if_true]
  congr 1
  set S := (lv.map fun z => ‖Complex.exp z‖ ^ order).sum with hS
  have hpos : 0 < S := by
    rw [hS]
    apply List.sum_pos
    · intro x hx
      obtain ⟨w, _, rfl⟩ := List.mem_map.1 hx
      rw [Complex.norm_exp]
      exact Real.rpow_pos_of_pos (Real.exp_pos _) _
    · simpa using h
  have e : (lv.map fun z => Real.exp (order * (z.re - M))).sum = Real.exp (-(M * order)) * S := by
    rw [hS, ← List.sum_map_mul_left]
    congr 1
    refine List.map_congr_left fun z _ => ?_
    rw [Complex.norm_exp, ← Real.exp_mul, ← Real.exp_add]
    ring_nf
  rw [e, Real.log_mul (Real.exp_pos _).ne' hpos.ne', Real.log_exp]
  ring

/-- C177: both need an indexable Hilbert space, and nothing else. -/
theorem C177_indexable (order : ℝ) (nz : Bool) (lv : List ℂ) (h : lv ≠ []) (i : Bool) :
    (toArray i nz lv = .error .runtimeError ↔ i = false) ∧ (logNorm i order lv = .error .runtimeError ↔ i = false) ∧
    ((∃ a, toArray i nz lv = .ok a) ↔ i = true) ∧ ((∃ a, logNorm i order lv = .ok a) ↔ i = true) := by
  obtain ⟨M, hM⟩ : ∃ M, maxRe lv = .ok M := by
    cases lv with
    | nil => exact absurd rfl h
    | cons z r => exact ⟨_, rfl⟩
  cases i <;> simp [toArray, logNorm, hM]

example := C177_indexable 2 true [1, Complex.I] (by simp) true

theorem zip_sum (jac : List (List ℂ)) (vec : List ℂ) (h : jac.length = vec.length) (F : List ℂ → ℂ → ℂ) :
    ((jac.zip vec).map fun q => F q.1 q.2).sum = ∑ i ∈ range vec.length, F (jac.getD i []) (ent vec i) := by
  induction jac generalizing vec with
  | nil =>
    cases vec with
    | nil => simp
    | cons v vec => simp at h
  | cons a jac ih =>
    cases vec with
    | nil => simp at h
    | cons v vec =>
      have h' : jac.length = vec.length := by simpa using h
      rw [List.zip_cons_cons, List.map_cons, List.sum_cons, ih vec h', List.length_cons, sum_range_succ', add_comm]
      simp [ent]

/-- C177: the vector-Jacobian product over a batch: the sum over the batch of the derivative of the logarithm times the entry of the vector,
    with the conjugate on the derivative (default) or on the vector. -/
theorem C177_vjp (nPar : Nat) (jac : List (List ℂ)) (vec : List ℂ) (h : jac.length = vec.length) :
    (∃ out, vjp2 nPar true jac vec = .ok out ∧ out.length = nPar
      ∧ ∀ k < nPar, ent out k = ∑ i ∈ range vec.length, star (ent (jac.getD i []) k) * ent vec i)
    ∧ (∃ out, vjp2 nPar false jac vec = .ok out ∧ out.length = nPar
      ∧ ∀ k < nPar, ent out k = ∑ i ∈ range vec.length, ent (jac.getD i []) k * star (ent vec i)) := by
  constructor
  · refine ⟨(List.range nPar).map fun k : Nat => ((jac.zip vec).map fun q => star (ent q.1 k) * q.2).sum, ?_, by simp, fun k hk => ?_⟩
    · unfold vjp2; rw [if_neg (by simpa using h)]; simp
    · rw [← zip_sum jac vec h fun a v => star (ent a k) * v]
      unfold ent
      simp [List.getD_eq_getElem?_getD, hk]
  · refine ⟨(List.range nPar).map fun k : Nat => ((jac.zip vec).map fun q => ent q.1 k * star q.2).sum, ?_, by simp, fun k hk => ?_⟩
    · unfold vjp2; rw [if_neg (by simpa using h)]; simp
    · rw [← zip_sum jac vec h fun a v => ent a k * star v]
      unfold ent
      simp [List.getD_eq_getElem?_getD, hk]

/-- C178: the vector-Jacobian product with a three-dimensional array of configurations, which is documented, fails unless the batches have
    length one. -/
theorem C178_vjp3_refuted (nPar : Nat) (conjugate : Bool) (B : Nat) (jac : List (List (List ℂ))) (vec : List ℂ)
    (hv : vec.length = jac.length * B) (hj : jac ≠ []) (hB : B ≠ 1) : vjp3 nPar conjugate B jac vec = .error .valueError := by
  unfold vjp3
  rw [if_pos]
  rw [hv]
  have : 0 < jac.length := List.length_pos_iff.2 hj
  intro e
  apply hB
  exact Nat.eq_of_mul_eq_mul_left this (by rw [← e, Nat.mul_one])

/-- C178 (partial): with batches of length one it is the sum over the configurations; missing: batches of any other length. -/
theorem C178_vjp3_partial (nPar : Nat) (jac : List (List ℂ)) (vec : List ℂ) (h : jac.length = vec.length) :
    (∃ out, vjp3 nPar true 1 (jac.map fun r => [r]) vec = .ok out ∧ out.length = nPar
      ∧ ∀ k < nPar, ent out k = ∑ i ∈ range vec.length, ent vec i * star (ent (jac.getD i []) k))
    ∧ (∃ out, vjp3 nPar false 1 (jac.map fun r => [r]) vec = .ok out ∧ out.length = nPar
      ∧ ∀ k < nPar, ent out k = ∑ i ∈ range vec.length, star (ent vec i) * ent (jac.getD i []) k) := by
  have hz : ∀ F : List ℂ → ℂ → ℂ, (((jac.map fun r => [r]).zip vec).map fun q => F (q.1.getD 0 []) q.2).sum
      = ((jac.zip vec).map fun q => F q.1 q.2).sum := by
    intro F
    rw [List.zip_map_left, List.map_map]
    rfl
  have h1 : List.range 1 = [0] := rfl
  constructor
  · refine ⟨(List.range nPar).map fun k : Nat => ((jac.zip vec).map fun q => q.2 * star (ent q.1 k)).sum, ?_, by simp, fun k hk => ?_⟩
    · unfold vjp3
      rw [if_neg (by simpa using h), h1]
      simp only [List.flatMap_cons, List.flatMap_nil, List.append_nil, if_true]
      congr 1
      exact List.map_congr_left fun k _ => hz fun a v => v * star (ent a k)
    · rw [← zip_sum jac vec h fun a v => v * star (ent a k)]
      unfold ent
      simp [List.getD_eq_getElem?_getD, hk]
  · refine ⟨(List.range nPar).map fun k : Nat => ((jac.zip vec).map fun q => star q.2 * ent q.1 k).sum, ?_, by simp, fun k hk => ?_⟩
    · unfold vjp3
      rw [if_neg (by simpa using h), h1]
      simp only [List.flatMap_cons, List.flatMap_nil, List.append_nil, Bool.false_eq_true, if_false]
      congr 1
      exact List.map_congr_left fun k _ => hz fun a v => star v * ent a k
    · rw [← zip_sum jac vec h fun a v => star v * ent a k]
      unfold ent
      simp [List.getD_eq_getElem?_getD, hk]

/-! ## Density matrices -/

/-- C177: with `normalize="trace"` the density matrix is divided by its trace: for a matrix with non-zero trace, every entry is the
    documented one and the trace is 1; the numerical shift cancels. -/
theorem C177_dm_trace (d : Nat) (shift : ℝ) (lv : List ℂ) (hl : lv.length = d * d)
    (hT : ∑ i ∈ range d, Complex.exp (ent lv (i * d + i)) ≠ 0) :
    ∃ out, dmToArray true .trace d shift lv = .ok out
      ∧ out = lv.map (fun z => Complex.exp z / ∑ i ∈ range d, Complex.exp (ent lv (i * d + i)))
      ∧ ∑ i ∈ range d, ent out (i * d + i) = 1 := by
  set T := ∑ i ∈ range d, Complex.exp (ent lv (i * d + i)) with hTd
  have hent : ∀ (f : ℂ → ℂ), ∀ i < d, ent (lv.map f) (i * d + i) = f (ent lv (i * d + i)) := by
    intro f i hi
    have : i * d + i < lv.length := by rw [hl]; exact flat_lt hi hi
    unfold ent
    rw [List.getD_eq_getElem?_getD, List.getElem?_map, List.getD_eq_getElem?_getD, List.getElem?_eq_getElem this]
    rfl
  have htr : traceFlat d (lv.map fun z => Complex.exp (z - shift)) = Complex.exp (-shift) * T := by
    unfold traceFlat
    rw [hTd, mul_sum]
    refine sum_congr rfl fun i hi => ?_
    rw [hent _ i (mem_range.1 hi), ← Complex.exp_add, sub_eq_neg_add]
  have hout : (lv.map fun z => Complex.exp (z - shift)).map (fun z => z / traceFlat d (lv.map fun z => Complex.exp (z - shift)))
      = lv.map (fun z => Complex.exp z / T) := by
    rw [htr, List.map_map]
    refine List.map_congr_left fun z _ => ?_
    simp only [Function.comp]
    rw [sub_eq_neg_add, Complex.exp_add]
    exact mul_div_mul_left _ _ (Complex.exp_ne_zero _)
  refine ⟨_, rfl, hout, ?_⟩
  simp only [hout]
  rw [sum_congr rfl fun i hi => hent (fun z => Complex.exp z / T) i (mem_range.1 hi), ← Finset.sum_div, ← hTd, div_self hT]

/-- C177: `to_matrix` is that matrix, so its trace is one. -/
theorem C177_dm_to_matrix (d : Nat) (shift : ℝ) (lv : List ℂ) (nz : Bool) (hl : lv.length = d * d)
    (hT : ∑ i ∈ range d, Complex.exp (ent lv (i * d + i)) ≠ 0) :
    (∃ out, dmToMatrix true nz d shift lv = .ok out
      ∧ out = lv.map (fun z => Complex.exp z / ∑ i ∈ range d, Complex.exp (ent lv (i * d + i)))
      ∧ ∑ i ∈ range d, ent out (i * d + i) = 1)
    ∧ dmToMatrix false nz d shift lv = .error .runtimeError ∧ ∀ m, dmToArray false m d shift lv = .error .runtimeError :=
  ⟨C177_dm_trace d shift lv hl hT, rfl, fun _ => rfl⟩

example := C177_dm_to_matrix 1 3 [0] false rfl (by simp [ent])

/-- C178: `to_matrix(normalize=False)` is normalised all the same. -/
theorem C178_dm_normalize_refuted (d : Nat) (shift : ℝ) (lv : List ℂ) (i : Bool) : dmToMatrix i false d shift lv = dmToMatrix i true d shift lv := rfl

/-- C178: `log_trace` is the sum of the logarithms of the diagonal, less all but one times the largest; it is the logarithm of the trace for no
    diagonal with at least two entries. -/
theorem C178_log_trace_refuted (lv : List ℂ) (h : 2 ≤ lv.length) : ∃ t : ℝ, dmLogTrace true lv = .ok t
    ∧ t < Real.log (lv.map fun z => Real.exp z.re).sum := by
  obtain ⟨M, -, ⟨z0, hz0, e0⟩, hle, -⟩ := C178_to_array_refuted lv (by intro e; rw [e] at h; simp at h)
  have hM : maxRe lv = .ok M := by
    cases lv with
    | nil => simp at h
    | cons a r =>
      simp only [maxRe]
      congr 1
      apply le_antisymm
      · have : ∀ (r : List ℂ) (m : ℝ), m ≤ M → (∀ z ∈ r, z.re ≤ M) → r.foldl (fun (m : ℝ) (w : ℂ) => max m w.re) m ≤ M := by
          intro r
          induction r with
          | nil => intro m hm _; exact hm
          | cons b r ih => intro m hm hr; exact ih _ (max_le hm (hr b List.mem_cons_self)) fun z hz => hr z (List.mem_cons_of_mem _ hz)
        exact this r _ (hle a List.mem_cons_self) fun z hz => hle z (List.mem_cons_of_mem _ hz)
      · have : ∀ (r : List ℂ) (m : ℝ), ∀ z ∈ r, z.re ≤ r.foldl (fun (m : ℝ) (w : ℂ) => max m w.re) m := by
          intro r
          induction r with
          | nil => intro m z hz; simp at hz
          | cons b r ih =>
            intro m z hz
            simp only [List.foldl_cons]
            rcases List.mem_cons.1 hz with rfl | hz
            · exact le_trans (le_max_right _ _) (foldl_max_le r _)
            · exact ih _ z hz
        rcases List.mem_cons.1 hz0 with rfl | hz
        · rw [← e0]; exact foldl_max_le r _
        · rw [← e0]; exact this r _ z0 hz
  refine ⟨(lv.map fun z => z.re - M).sum + M, ?_, ?_⟩
  · unfold dmLogTrace
    simp only [hM, if_true, Real.log_exp]
  · have h1 : (lv.map fun z => z.re - M).sum ≤ 0 := by
      have : ∀ l : List ℂ, (∀ z ∈ l, z.re ≤ M) → (l.map fun z => z.re - M).sum ≤ 0 := by
        intro l
        induction l with
        | nil => intro _; simp
        | cons a l ih =>
          intro hl
          rw [List.map_cons, List.sum_cons]
          linarith [ih fun z hz => hl z (List.mem_cons_of_mem _ hz), hl a List.mem_cons_self]
      exact this lv hle
    have h2 : Real.exp M < (lv.map fun z => Real.exp z.re).sum := by
      obtain ⟨s, t, rfl⟩ := List.append_of_mem hz0
      rw [List.map_append, List.sum_append, List.map_cons, List.sum_cons, e0]
      have pos : ∀ l : List ℂ, 0 ≤ (l.map fun z => Real.exp z.re).sum := by
        intro l
        apply List.sum_nonneg
        intro x hx
        obtain ⟨z, _, rfl⟩ := List.mem_map.1 hx
        positivity
      have pos' : ∀ l : List ℂ, l ≠ [] → 0 < (l.map fun z => Real.exp z.re).sum := by
        intro l hl
        apply List.sum_pos
        · intro x hx
          obtain ⟨z, _, rfl⟩ := List.mem_map.1 hx
          positivity
        · simpa using hl
      by_cases hs : s = []
      · have ht : t ≠ [] := by
          intro ht
          rw [hs, ht] at h
          simp at h
        linarith [pos s, pos' t ht]
      · linarith [pos' s hs, pos t]
    calc (lv.map fun z => z.re - M).sum + M ≤ M := by linarith
      _ = Real.log (Real.exp M) := (Real.log_exp M).symm
      _ < _ := Real.log_lt_log (Real.exp_pos _) h2

theorem l2_shift (lv : List ℂ) (M : ℝ) : l2 (lv.map fun z => Complex.exp (z - M)) = Real.exp (-M) * l2 (lv.map Complex.exp) := by
  unfold l2
  rw [show ((lv.map fun z => Complex.exp (z - M)).map fun z => ‖z‖ ^ 2).sum
      = Real.exp (-M) ^ 2 * ((lv.map Complex.exp).map fun z => ‖z‖ ^ 2).sum by
    rw [← List.sum_map_mul_left, List.map_map, List.map_map]
    congr 1
    refine List.map_congr_left fun z _ => ?_
    simp only [Function.comp_def, Complex.norm_exp, Complex.sub_re, Complex.ofReal_re]
    rw [← mul_pow, ← Real.exp_add]; ring_nf]
  rw [Real.sqrt_mul (by positivity), Real.sqrt_sq (Real.exp_pos _).le]

/-- C178: `to_array(normalize=True)` of a density matrix divides by the Frobenius norm, although the documentation says that the trace of the
    result is one: the trace of the result is the quotient of trace and norm, which is not one in general. -/
theorem C178_dm_to_array_refuted :
    (∀ (d : Nat) (shift : ℝ) (lv : List ℂ), lv.length = d * d → ∃ out, dmToArray true .l2 d shift lv = .ok out
      ∧ traceFlat d out = (∑ i ∈ range d, Complex.exp (ent lv (i * d + i))) / (l2 (lv.map Complex.exp) : ℂ))
    ∧ ∃ lv : List ℂ, lv.length = 2 * 2 ∧ ∀ shift, ∃ out, dmToArray true .l2 2 shift lv = .ok out ∧ traceFlat 2 out ≠ 1 := by
  have key : ∀ (d : Nat) (shift : ℝ) (lv : List ℂ), lv.length = d * d → ∃ out, dmToArray true .l2 d shift lv = .ok out
      ∧ traceFlat d out = (∑ i ∈ range d, Complex.exp (ent lv (i * d + i))) / (l2 (lv.map Complex.exp) : ℂ) := by
    intro d shift lv hl
    refine ⟨_, rfl, ?_⟩
    simp only [l2_shift]
    unfold traceFlat
    rw [Finset.sum_div]
    refine sum_congr rfl fun i hi => ?_
    have : i * d + i < lv.length := by rw [hl]; exact flat_lt (mem_range.1 hi) (mem_range.1 hi)
    unfold ent
    simp only [List.getD_eq_getElem?_getD, List.getElem?_map]
    rw [List.getElem?_eq_getElem this]
    simp only [Option.map_some, Option.getD_some]
    rw [sub_eq_neg_add, Complex.exp_add, Complex.ofReal_mul, Complex.ofReal_exp, Complex.ofReal_neg]
    exact mul_div_mul_left _ _ (Complex.exp_ne_zero _)
  refine ⟨key, [0, Complex.log 2, Complex.log 2, 0], rfl, fun shift => ?_⟩
  obtain ⟨out, h1, h2⟩ := key 2 shift [0, Complex.log 2, Complex.log 2, 0] rfl
  refine ⟨out, h1, ?_⟩
  rw [h2]
  have hn : l2 (([0, Complex.log 2, Complex.log 2, 0] : List ℂ).map Complex.exp) = Real.sqrt 10 := by
    unfold l2
    simp only [List.map_cons, List.map_nil, Complex.exp_zero, Complex.exp_log (show (2 : ℂ) ≠ 0 by norm_num), List.sum_cons, List.sum_nil]
    norm_num
  rw [hn]
  have hs : ∑ i ∈ range 2, Complex.exp (ent [0, Complex.log 2, Complex.log 2, 0] (i * 2 + i)) = 2 := by
    simp [sum_range_succ, ent]; norm_num
  rw [hs]
  intro e
  have hne : (Real.sqrt 10 : ℂ) ≠ 0 := by
    have : (0 : ℝ) < Real.sqrt 10 := Real.sqrt_pos.2 (by norm_num)
    exact_mod_cast this.ne'
  rw [div_eq_one_iff_eq hne] at e
  have e' : (2 : ℝ) = Real.sqrt 10 := by exact_mod_cast e
  have : (2 : ℝ) ^ 2 = 10 := by rw [e', Real.sq_sqrt (by norm_num)]
  norm_num at this

theorem stack_sum (n : Nat) (F : Nat → ℂ) (xr xc : Nat → ℂ) :
    ∑ i ∈ range (n * 2), F i * stack n xr xc i = ∑ i ∈ range n, F i * xr i + ∑ i ∈ range n, F (n + i) * xc i := by
  rw [Nat.mul_two, sum_range_add]
  congr 1
  · refine sum_congr rfl fun i hi => ?_
    unfold stack; rw [if_pos (mem_range.1 hi)]
  · refine sum_congr rfl fun i hi => ?_
    unfold stack; rw [if_neg (by omega), Nat.add_sub_cancel_left]

/-- C177: the density-matrix RBM: row and column configurations both enter every hidden unit, with their own weights and biases; `diagonal()`
    is the same with the two equal. -/
theorem C177_dm_log_val (c : Cfg) (n : Nat) (hs : c.sym = none) (hn : c.n = n * 2) (p : List ℂ) (xr xc : Nat → ℂ)
    (h : ∀ j < c.m, Good (theta c p (stack n xr xc) j)) :
    Complex.exp (dmLogVal c n p xr xc)
      = Complex.exp (if c.useA then ∑ i ∈ range n, ent p i * xr i + ∑ i ∈ range n, ent p (n + i) * xc i else 0)
        * ∏ j ∈ range c.m, Complex.cosh (∑ i ∈ range n, ent p (offW c + (i * c.m + j)) * xr i
            + ∑ i ∈ range n, ent p (offW c + ((n + i) * c.m + j)) * xc i + if c.useB then ent p (offB c + j) else 0)
    ∧ diagLogVal c n p xr = dmLogVal c n p xr xr := by
  refine ⟨?_, rfl⟩
  unfold dmLogVal
  rw [C177_log_val c hs p _ h]
  unfold psi
  rw [hn]
  congr 1
  · congr 1
    by_cases hA : c.useA = true
    · simp only [hA, if_true]; exact stack_sum n _ xr xc
    · simp [hA]
  · refine prod_congr rfl fun j _ => ?_
    rw [stack_sum n (fun i => ent p (offW c + (i * c.m + j))) xr xc]

/-- C177: its parameters: `2 n` visible units. -/
theorem C177_dm_init (size : Nat) (h : Int) (hh : 0 ≤ h) (uA uB real : Bool) :
    mkDmRbm size (some h) none uA uB none real = .ok ⟨size * 2, h.toNat, uA, uB, none, h.toNat, real⟩ := by
  unfold mkDmRbm mkRbm
  simp only [Option.map_none, (C177_hidden (size * 2)).1 h hh]
  rw [if_neg (by omega)]

/-- C178: a density-matrix RBM with automorphisms cannot be constructed. -/
theorem C178_dm_automorphisms_refuted (size : Nat) (nh : Option Int) (alpha : Option Alpha) (uA uB : Bool)
    (a : Nat × Nat × (Nat → Nat → Nat)) (real : Bool) : mkDmRbm size nh alpha uA uB (some a) real = .error .nameError := rfl

/-- C178: the parameters of the diagonal cannot be assigned. -/
theorem C178_diagonal_refuted (p new : List ℂ) : diagSet p new = (p, some .attributeError) := rfl

/-! ## Examples -/

example : oneHot 2 2 3 (fun b i => if b = 1 ∧ i = 1 then 2 else 0) (fun l => l) 1 5 = 1
    ∧ oneHot 2 2 3 (fun b i => if b = 1 ∧ i = 1 then 2 else 0) (fun l => l) 1 3 = -1 := by
  constructor
  · rw [show 5 = 1 * 3 + 2 by rfl, C177_one_hot _ _ _ _ _ _ _ _ (by decide) (by decide) (by decide)]; simp
  · rw [show 3 = 1 * 3 + 0 by rfl, C177_one_hot _ _ _ _ _ _ _ _ (by decide) (by decide) (by decide)]; simp

example : IsPermGroup (4 * 3) 4 (extendPerm 3 ring4) := extend_group 4 3 4 ring4 ⟨by decide, by decide, by decide, by decide⟩ (by decide)

example : vjp2 2 true [[1, 2], [3, Complex.I]] [5, 7] = .ok [1 * 5 + 3 * 7, 2 * 5 + -Complex.I * 7] := by
  simp [vjp2, ent, List.range_succ]
  exact ⟨Complex.conj_ofNat 3, Complex.conj_ofNat 2⟩

example : (∀ k, (ent ([1, 2] : List ℂ) k).im = 0) ∧ nPar ⟨1, 1, false, true, none, 1, true⟩ = 2 := by
  refine ⟨fun k => ?_, rfl⟩
  rcases k with _ | _ | k <;> simp [ent]

/-- a machine with two inputs and one hidden unit with real parameters. -/
def exCfg : Cfg := ⟨2, 1, true, true, none, 1, true⟩

theorem real_ent (p : List ℂ) (h : ∀ z ∈ p, z.im = 0) (k : Nat) : (ent p k).im = 0 := by
  unfold ent
  by_cases hk : k < p.length
  · rw [List.getD_eq_getElem _ _ hk]; exact h _ (List.getElem_mem hk)
  · rw [List.getD_eq_default _ _ (by omega)]; rfl

example := C177_multi_invariant 4 3 4 ring4 ⟨by decide, by decide, by decide, by decide⟩ (by decide) ⟨12, 8, true, true, some (4, extendPerm 3 ring4), 2, false⟩
  rfl rfl rfl [1, Complex.I, 2] 2 (fun b i => if b = 1 ∧ i = 1 then 2 else 0) (fun l => l) 1 (by decide) 3 (by decide)

example := C177_multi_automorphisms 4 3 4 4 ring4 (by decide) (by decide)

example := C177_der_log_real exCfg [1, 2, 3, 4, 5] rfl (real_ent _ (by simp)) (fun i => i) (fun _ => Complex.natCast_im _) 3 (by decide)

example := C177_phase exCfg exCfg [1, 2, 3, 4, 5] [2, 0, 1, 1, 1] (real_ent _ (by simp)) (real_ent _ (by simp)) (fun i => i) (fun _ => Complex.natCast_im _)

example := C177_phase_der_log exCfg exCfg [1, 2, 3, 4, 5] [2, 0, 1, 1, 1] rfl rfl (real_ent _ (by simp)) (real_ent _ (by simp)) (fun i => i)
  (fun _ => Complex.natCast_im _)

example := C177_phase_parameters exCfg exCfg rfl rfl ([], []) [1, 2, 3, 4, 5] [2, 0, 1, 1, 1] rfl rfl

example := C178_phase_parameters_refuted exCfg exCfg rfl ([], []) [1, 2, 3, 4, 5] [2, 0] rfl (by decide)

example := C178_out_refuted exCfg rfl [1, 2, 3, 4, 5] (fun i => i)

example := C177_to_array [1, Complex.I] (by simp)

example := C178_to_array_refuted [1, Complex.I] (by simp)

example := C177_log_norm 2 [1, Complex.I] (by simp)

example := C177_vjp 2 [[1, 2], [3, Complex.I]] [5, 7] rfl

example := C178_vjp3_refuted 2 true 2 [[[1, 2], [3, Complex.I]], [[1, 2], [3, Complex.I]]] [5, 7, 1, 2] rfl (by simp) (by decide)

example := C178_vjp3_partial 2 [[1, 2], [3, Complex.I]] [5, 7] rfl

example := C177_dm_trace 2 1 [0, 1, Complex.I, 0] rfl (by simp [ent, Finset.sum_range_succ])

example := C178_log_trace_refuted [1, Complex.I] (by simp)

example := C177_dm_log_val ⟨2, 1, false, true, none, 1, true⟩ 1 rfl rfl [1, 2, 3] (fun _ => 1) (fun _ => 1) (by
  intro j hj
  obtain rfl : j = 0 := by simpa using hj
  left
  norm_num [theta, stack, ent, offW, offB, Finset.sum_range_succ])

example := C177_dm_init 3 2 (by decide) true false true

end Verif.LegacyMachine
