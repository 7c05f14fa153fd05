import Verif.Model.LegacyMachine
import Verif.Props.SymmLinear
import Mathlib.Analysis.SpecialFunctions.Trigonometric.DerivHyp
import Mathlib.Analysis.Calculus.Deriv.Mul
import Mathlib.Data.List.GetD
import Mathlib.Tactic.Linarith
import Mathlib.Tactic.Positivity
import Mathlib.Tactic.NormNum

/-! C177, C178: the Restricted Boltzmann machines of `netket/legacy/machine/rbm.py`. -/

set_option linter.unusedSectionVars false
set_option linter.unusedVariables false

namespace Verif.LegacyMachine
open Verif.Hilbert (Err)
open Verif.Symm (IsPermGroup IsTranslate exists_translate sum_range_perm sum_range_flat divmod flat_lt sum_range_divmod)
open Finset

/-! ## Specification -/

/-- the amplitude of the documentation: `e^{Σ a_i s_i} Π_j cosh(Σ_i W_ij s_i + b_j)`. -/
noncomputable def psi (n m : Nat) (a b : Nat → ℂ) (w : Nat → Nat → ℂ) (s : Nat → ℂ) : ℂ :=
  Complex.exp (∑ i ∈ range n, a i * s i) * ∏ j ∈ range m, Complex.cosh (∑ i ∈ range n, w i j * s i + b j)

/-- the symmetric amplitude: every feature is applied to the configuration permuted by each of the automorphisms. -/
noncomputable def psiSymm (n al P : Nat) (perm : Nat → Nat → Nat) (a : ℂ) (b : Nat → ℂ) (w : Nat → Nat → ℂ) (s : Nat → ℂ) : ℂ :=
  Complex.exp (a * ∑ i ∈ range n, s i) * ∏ f ∈ range al, ∏ g ∈ range P, Complex.cosh (∑ i ∈ range n, w (perm g i) f * s i + b f)

/-- the numbers which the formula of `log_val` handles: real part not zero, or zero itself. -/
def Good (z : ℂ) : Prop := z.re ≠ 0 ∨ z = 0

/-! ## Flat arrays -/

section
variable {α : Type}

/-- visible part, hidden part, matrix by rows. -/
def three (uA uB : Bool) (n m : Nat) (fa fb : Nat → α) (fw : Nat → Nat → α) : List α :=
  (if uA then (List.range n).map fa else []) ++ (if uB then (List.range m).map fb else [])
    ++ (List.range n).flatMap fun i : Nat => (List.range m).map fun j : Nat => fw i j

theorem flat_length (n m : Nat) (F : Nat → Nat → α) :
    ((List.range n).flatMap fun i : Nat => (List.range m).map fun j : Nat => F i j).length = n * m := by
  induction n with
  | zero => simp
  | succ n ih => rw [List.range_succ, List.flatMap_append, List.length_append, ih]; simp [Nat.succ_mul]

theorem flat_getD (n m : Nat) (F : Nat → Nat → α) (d : α) (i j : Nat) (hi : i < n) (hj : j < m) :
    ((List.range n).flatMap fun i : Nat => (List.range m).map fun j : Nat => F i j).getD (i * m + j) d = F i j := by
  induction n with
  | zero => omega
  | succ n ih =>
    rw [List.range_succ, List.flatMap_append]
    by_cases h : i < n
    · rw [List.getD_append _ _ _ _ (by rw [flat_length]; exact flat_lt h hj)]
      exact ih h
    · obtain rfl : i = n := by omega
      rw [List.getD_append_right _ _ _ _ (by rw [flat_length]; omega), flat_length]
      simp [hj, List.getD_eq_getElem?_getD]

theorem three_length (uA uB : Bool) (n m : Nat) (fa fb : Nat → α) (fw : Nat → Nat → α) :
    (three uA uB n m fa fb fw).length = (if uA then n else 0) + (if uB then m else 0) + n * m := by
  unfold three
  rw [List.length_append, List.length_append, flat_length]
  cases uA <;> cases uB <;> simp

theorem three_a (uB : Bool) (n m : Nat) (fa fb : Nat → α) (fw : Nat → Nat → α) (d : α) (i : Nat) (hi : i < n) :
    (three true uB n m fa fb fw).getD i d = fa i := by
  unfold three
  rw [List.append_assoc, List.getD_append _ _ _ _ (by simpa using hi)]
  simp [hi, List.getD_eq_getElem?_getD]

theorem three_b (uA : Bool) (n m : Nat) (fa fb : Nat → α) (fw : Nat → Nat → α) (d : α) (j : Nat) (hj : j < m) :
    (three uA true n m fa fb fw).getD ((if uA then n else 0) + j) d = fb j := by
  unfold three
  rw [List.append_assoc, List.getD_append_right _ _ _ _ (by cases uA <;> simp),
    List.getD_append _ _ _ _ (by cases uA <;> simp [hj])]
  cases uA <;> simp [hj, List.getD_eq_getElem?_getD]

theorem three_w (uA uB : Bool) (n m : Nat) (fa fb : Nat → α) (fw : Nat → Nat → α) (d : α) (i j : Nat) (hi : i < n) (hj : j < m) :
    (three uA uB n m fa fb fw).getD ((if uA then n else 0) + (if uB then m else 0) + (i * m + j)) d = fw i j := by
  unfold three
  rw [List.getD_append_right _ _ _ _ (by cases uA <;> cases uB <;> simp),
    show (if uA then n else 0) + (if uB then m else 0) + (i * m + j)
      - ((if uA = true then (List.range n).map fa else []) ++ (if uB = true then (List.range m).map fb else [])).length = i * m + j by
        cases uA <;> cases uB <;> simp]
  exact flat_getD n m fw d i j hi hj

end

theorem replicate_eq (n : Nat) {α : Type} (v : α) : List.replicate n v = (List.range n).map fun _ => v := by
  simp [List.map_const']

theorem setBare_three (c : Cfg) (P : Nat) (perm : Nat → Nat → Nat) (p : List ℂ) :
    setBare c P perm p = three c.useA c.useB c.n c.m (fun _ => ent p 0) (fun j => ent p (offBs c + j / P))
      (fun i j => ent p (offWs c + (perm (j % P) i * c.alpha + j / P))) := by
  unfold setBare three
  rw [replicate_eq]

theorem derRows_three (c : Cfg) (P : Nat) (perm : Nat → Nat → Nat) :
    derRows c P perm = three c.useA c.useB c.n c.m (fun _ => 0) (fun j => j / P + offBs c)
      (fun i j => j / P + c.alpha * perm (j % P) i + offWs c) := by
  unfold derRows three
  rw [replicate_eq]

/-! ## Every bare parameter is one of the symmetric parameters -/

/-- which parameter determines bare parameter `q`. -/
def rowOf (c : Cfg) (q : Nat) : Nat :=
  match c.sym with
  | none => q
  | some (P, perm) => (derRows c P perm).getD q 0

theorem offW_eq (c : Cfg) : offW c = (if c.useA then c.n else 0) + (if c.useB then c.m else 0) := rfl

theorem nBare_split (c : Cfg) (F : Nat → ℂ) : ∑ q ∈ range (nBare c), F q
    = (if c.useA then ∑ i ∈ range c.n, F i else 0) + (if c.useB then ∑ j ∈ range c.m, F (offB c + j) else 0)
      + ∑ i ∈ range c.n, ∑ j ∈ range c.m, F (offW c + (i * c.m + j)) := by
  unfold nBare
  rw [Finset.sum_range_add, sum_range_flat]
  congr 1
  unfold offW offB
  cases c.useA <;> cases c.useB <;> simp [Finset.sum_range_add]

theorem bare_a (c : Cfg) (p : List ℂ) (hA : c.useA = true) (i : Nat) (hi : i < c.n) : ent (bare c p) i = ent p (rowOf c i) := by
  unfold bare rowOf
  cases hs : c.sym with
  | none => rfl
  | some s =>
    obtain ⟨P, perm⟩ := s
    simp only
    rw [setBare_three, derRows_three, hA, ent, three_a _ _ _ _ _ _ _ i hi, three_a _ _ _ _ _ _ _ i hi]

theorem bare_b (c : Cfg) (p : List ℂ) (hB : c.useB = true) (j : Nat) (hj : j < c.m) :
    ent (bare c p) (offB c + j) = ent p (rowOf c (offB c + j)) := by
  unfold bare rowOf
  cases hs : c.sym with
  | none => rfl
  | some s =>
    obtain ⟨P, perm⟩ := s
    simp only [offB]
    rw [setBare_three, derRows_three, hB, ent, three_b _ _ _ _ _ _ _ j hj, three_b _ _ _ _ _ _ _ j hj, Nat.add_comm]

theorem bare_w (c : Cfg) (p : List ℂ) (i j : Nat) (hi : i < c.n) (hj : j < c.m) :
    ent (bare c p) (offW c + (i * c.m + j)) = ent p (rowOf c (offW c + (i * c.m + j))) := by
  unfold bare rowOf
  cases hs : c.sym with
  | none => rfl
  | some s =>
    obtain ⟨P, perm⟩ := s
    simp only [offW_eq]
    rw [setBare_three, derRows_three, ent, three_w _ _ _ _ _ _ _ _ i j hi hj, three_w _ _ _ _ _ _ _ _ i j hi hj]
    congr 1
    rw [Nat.mul_comm c.alpha]
    omega

theorem bareDerLog_three (c : Cfg) (b : List ℂ) (x : Nat → ℂ) : bareDerLog c b x
    = three c.useA c.useB c.n c.m (fun i => x i) (fun j => Complex.tanh (theta c b x j)) (fun i j => x i * Complex.tanh (theta c b x j)) := rfl

theorem bareDerLog_length (c : Cfg) (b : List ℂ) (x : Nat → ℂ) : (bareDerLog c b x).length = nBare c := by
  rw [bareDerLog_three, three_length]; rfl

/-- the entries of `der_log`, as sums over the bare parameters. -/
theorem derLog_ent (c : Cfg) (p : List ℂ) (x : Nat → ℂ) (k : Nat) (hk : k < nPar c) :
    ent (derLog c p x) k = ∑ q ∈ range (nBare c), ent (bareDerLog c (bare c p) x) q * (if rowOf c q = k then 1 else 0) := by
  unfold derLog bare rowOf
  cases hs : c.sym with
  | none =>
    have hk' : k < nBare c := by unfold nPar at hk; rw [hs] at hk; exact hk
    simp [hk']
  | some s =>
    obtain ⟨P, perm⟩ := s
    simp only
    unfold ent derMat
    simp [hk, List.getD_eq_getElem?_getD]

/-! ## Values -/

theorem exp_logCosh1 (z : ℂ) (h : Good z) : Complex.exp (logCosh1 z) = Complex.cosh z := by
  have key : ∀ y : ℂ, 1 + Complex.exp (-2 * y) ≠ 0 →
      Complex.exp (y - Complex.log 2 + Complex.log (1 + Complex.exp (-2 * y))) = Complex.cosh y := by
    intro y hy
    rw [Complex.exp_add, Complex.exp_log hy, Complex.exp_sub, Complex.exp_log (by norm_num), Complex.cosh]
    rw [div_mul_eq_mul_div, mul_add, mul_one, ← Complex.exp_add, show y + -2 * y = -y by ring]
  have hne : ∀ y : ℂ, 0 < y.re → 1 + Complex.exp (-2 * y) ≠ 0 := by
    intro y hy h0
    have h1 : Complex.exp (-2 * y) = -1 := by linear_combination h0
    have h2 := congrArg (fun w : ℂ => ‖w‖) h1
    simp only [Complex.norm_exp, norm_neg, norm_one] at h2
    rw [Real.exp_eq_one_iff] at h2
    simp at h2
    linarith
  unfold logCosh1 sgn
  simp only
  rcases lt_trichotomy z.re 0 with hz | hz | hz
  · rw [if_pos hz, mul_neg_one, key _ (hne (-z) (by simpa using hz)), Complex.cosh_neg]
  · rcases h with h | rfl
    · exact absurd hz h
    · simp only [Complex.zero_re, lt_irrefl, if_false, zero_mul]
      rw [key 0 (by norm_num)]
  · rw [if_neg (by linarith), if_pos hz, mul_one, key z (hne z hz)]

theorem exp_logVal_bare (c : Cfg) (b : List ℂ) (x : Nat → ℂ) (h : ∀ j < c.m, Good (theta c b x j)) :
    Complex.exp (logValBuf c b x).2
      = psi c.n c.m (fun i => if c.useA then ent b i else 0) (fun j => if c.useB then ent b (offB c + j) else 0)
          (fun i j => ent b (offW c + (i * c.m + j))) x := by
  have hs : Complex.exp (∑ j ∈ range c.m, logCosh1 (theta c b x j)) = ∏ j ∈ range c.m, Complex.cosh (theta c b x j) := by
    rw [Complex.exp_sum]
    exact prod_congr rfl fun j hj => exp_logCosh1 _ (h j (mem_range.1 hj))
  have ht : ∀ j, theta c b x j
      = ∑ i ∈ range c.n, ent b (offW c + (i * c.m + j)) * x i + if c.useB then ent b (offB c + j) else 0 := by
    intro j
    unfold theta
    congr 1
    exact sum_congr rfl fun i _ => mul_comm _ _
  unfold logValBuf psi
  simp only
  by_cases hA : c.useA = true
  · rw [if_pos hA, Complex.exp_add, hs, mul_comm]
    simp only [hA, if_true, ht]
    congr 2
    exact sum_congr rfl fun i _ => mul_comm _ _
  · rw [if_neg hA, hs]
    simp only [hA, ht]
    simp

/-- C177: `log_val` is the logarithm of the documented amplitude, for the machine without symmetries; the parameters are stored in the order
    visible biases, hidden biases, weights by rows. -/
theorem C177_log_val (c : Cfg) (hs : c.sym = none) (p : List ℂ) (x : Nat → ℂ) (h : ∀ j < c.m, Good (theta c p x j)) :
    Complex.exp (logVal c p x)
      = psi c.n c.m (fun i => if c.useA then ent p i else 0) (fun j => if c.useB then ent p (offB c + j) else 0)
          (fun i j => ent p (offW c + (i * c.m + j))) x := by
  unfold logVal bare
  rw [hs]
  exact exp_logVal_bare c p x h

/-- real parameters and configurations cause no exception. -/
theorem good_real (r : ℝ) : Good (r : ℂ) := by
  unfold Good
  by_cases h : r = 0
  · right; rw [h]; rfl
  · left; simpa using h

theorem theta_real (c : Cfg) (b : List ℂ) (hb : ∀ k, (ent b k).im = 0) (x : Nat → ℂ) (hx : ∀ i, (x i).im = 0) (j : Nat) :
    ∃ r : ℝ, theta c b x j = (r : ℂ) := by
  refine ⟨(theta c b x j).re, ?_⟩
  apply Complex.ext
  · simp
  · unfold theta
    rw [Complex.add_im, Complex.im_sum, Complex.ofReal_im]
    have h1 : ∑ i ∈ range c.n, (x i * ent b (offW c + (i * c.m + j))).im = 0 :=
      sum_eq_zero fun i _ => by rw [Complex.mul_im, hb, hx]; ring
    rw [h1]
    split <;> simp [hb]

/-- C177: a machine with real parameters: `log_val` is the logarithm of the amplitude for every real configuration, and it is real. -/
theorem C177_real (c : Cfg) (hs : c.sym = none) (p : List ℂ) (hp : ∀ k, (ent p k).im = 0) (x : Nat → ℂ) (hx : ∀ i, (x i).im = 0) :
    Complex.exp (logVal c p x)
      = psi c.n c.m (fun i => if c.useA then ent p i else 0) (fun j => if c.useB then ent p (offB c + j) else 0)
          (fun i j => ent p (offW c + (i * c.m + j))) x := by
  refine C177_log_val c hs p x fun j _ => ?_
  obtain ⟨r, e⟩ := theta_real c p hp x hx j
  rw [e]; exact good_real r

theorem logCosh1_real (r : ℝ) : (logCosh1 (r : ℂ)).im = 0 := by
  have key : ∀ y : ℝ, ((y : ℂ) - Complex.log 2 + Complex.log (1 + Complex.exp (-2 * (y : ℂ)))).im = 0 := by
    intro y
    have h1 : (1 : ℂ) + Complex.exp (-2 * (y : ℂ)) = ((1 + Real.exp (-2 * y) : ℝ) : ℂ) := by push_cast; rfl
    have h2 : (2 : ℂ) = ((2 : ℝ) : ℂ) := by norm_num
    rw [h1, ← Complex.ofReal_log (by positivity)]
    have h3 : (Complex.log 2).im = 0 := by rw [h2, ← Complex.ofReal_log (by norm_num), Complex.ofReal_im]
    simp [h3]
  unfold logCosh1 sgn
  simp only [Complex.ofReal_re]
  split
  · have := key (-r); simpa using this
  · split
    · have := key r; simpa using this
    · have := key 0; simpa using this

theorem logVal_real (c : Cfg) (b : List ℂ) (hb : ∀ k, (ent b k).im = 0) (x : Nat → ℂ) (hx : ∀ i, (x i).im = 0) :
    (logValBuf c b x).2.im = 0 := by
  have h1 : (∑ j ∈ range c.m, logCosh1 (theta c b x j)).im = 0 := by
    rw [Complex.im_sum]
    refine sum_eq_zero fun j _ => ?_
    obtain ⟨r, e⟩ := theta_real c b hb x hx j
    rw [e]; exact logCosh1_real r
  unfold logValBuf
  simp only
  split
  · rw [Complex.add_im, h1, Complex.im_sum, zero_add]
    exact sum_eq_zero fun i _ => by rw [Complex.mul_im, hb, hx]; ring
  · exact h1

theorem bare_real (c : Cfg) (p : List ℂ) (hp : ∀ k, (ent p k).im = 0) : ∀ k, (ent (bare c p) k).im = 0 := by
  intro k
  unfold bare
  cases hs : c.sym with
  | none => exact hp k
  | some s =>
    obtain ⟨P, perm⟩ := s
    simp only
    have hall : ∀ z ∈ setBare c P perm p, z.im = 0 := by
      intro z hz
      unfold setBare at hz
      rw [List.mem_append, List.mem_append] at hz
      rcases hz with (hz | hz) | hz
      · split at hz
        · rw [List.eq_of_mem_replicate hz]; exact hp 0
        · simp at hz
      · split at hz
        · obtain ⟨j, _, rfl⟩ := List.mem_map.1 hz; exact hp _
        · simp at hz
      · obtain ⟨i, _, hz⟩ := List.mem_flatMap.1 hz
        obtain ⟨j, _, rfl⟩ := List.mem_map.1 hz
        exact hp _
    unfold ent
    rw [List.getD_eq_getElem?_getD]
    by_cases hk : k < (setBare c P perm p).length
    · rw [List.getElem?_eq_getElem hk]; exact hall _ (List.getElem_mem hk)
    · rw [List.getElem?_eq_none (by omega)]; rfl

/-- C177: a real machine, with or without symmetries, has real log-amplitudes. -/
theorem C177_real_value (c : Cfg) (p : List ℂ) (hp : ∀ k, (ent p k).im = 0) (x : Nat → ℂ) (hx : ∀ i, (x i).im = 0) :
    (logVal c p x).im = 0 :=
  logVal_real c _ (bare_real c p hp) x hx

/-- C177: the symmetric machine: `alpha_symm` features, each seen through every automorphism, one visible bias and one hidden bias per
    feature. -/
theorem C177_log_val_symm (c : Cfg) (P : Nat) (perm : Nat → Nat → Nat) (hs : c.sym = some (P, perm)) (hm : c.m = c.alpha * P)
    (p : List ℂ) (x : Nat → ℂ) (h : ∀ j < c.m, Good (theta c (bare c p) x j)) :
    Complex.exp (logVal c p x)
      = psiSymm c.n c.alpha P perm (if c.useA then ent p 0 else 0) (fun f => if c.useB then ent p (offBs c + f) else 0)
          (fun i f => ent p (offWs c + (i * c.alpha + f))) x := by
  unfold logVal
  rw [exp_logVal_bare c _ x h]
  have eb : bare c p = setBare c P perm p := by unfold bare; rw [hs]
  unfold psi psiSymm
  congr 1
  · congr 1
    rw [mul_sum]
    refine sum_congr rfl fun i hi => ?_
    by_cases hA : c.useA = true
    · simp only [hA, if_true, eb]
      rw [setBare_three, hA, ent, three_a _ _ _ _ _ _ _ i (mem_range.1 hi)]
    · simp [hA]
  · rw [hm]
    have hprod : ∀ F : Nat → Nat → ℂ, ∏ q ∈ range (c.alpha * P), F (q / P) (q % P) = ∏ f ∈ range c.alpha, ∏ g ∈ range P, F f g := by
      intro F
      exact sum_range_divmod (M := Additive ℂ) c.alpha P F
    rw [← hprod fun f g => Complex.cosh (∑ i ∈ range c.n, ent p (offWs c + (perm g i * c.alpha + f)) * x i
      + if c.useB then ent p (offBs c + f) else 0)]
    refine prod_congr rfl fun j hj => ?_
    have hj' : j < c.m := by rw [hm]; exact mem_range.1 hj
    congr 2
    · refine sum_congr rfl fun i hi => ?_
      simp only
      rw [← hm, eb, setBare_three, offW_eq, ent, three_w _ _ _ _ _ _ _ _ i j (mem_range.1 hi) hj']
    · by_cases hB : c.useB = true
      · simp only [hB, if_true, eb]
        rw [setBare_three, hB, ent]
        unfold offB
        rw [three_b _ _ _ _ _ _ _ j hj']
      · simp [hB]

theorem theta_symm (c : Cfg) (P : Nat) (perm : Nat → Nat → Nat) (hm : c.m = c.alpha * P) (p : List ℂ) (x : Nat → ℂ) (f g : Nat)
    (hf : f < c.alpha) (hg : g < P) :
    theta c (setBare c P perm p) x (f * P + g)
      = ∑ i ∈ range c.n, x i * ent p (offWs c + (perm g i * c.alpha + f)) + if c.useB then ent p (offBs c + f) else 0 := by
  have hj : f * P + g < c.m := by rw [hm]; exact flat_lt hf hg
  obtain ⟨h1, h2⟩ := divmod P f g hg
  unfold theta
  congr 1
  · refine sum_congr rfl fun i hi => ?_
    rw [setBare_three, offW_eq, ent, three_w _ _ _ _ _ _ _ _ i _ (mem_range.1 hi) hj, h1, h2]
  · by_cases hB : c.useB = true
    · rw [if_pos hB, if_pos hB, setBare_three, hB, ent]
      unfold offB
      rw [three_b _ _ _ _ _ _ _ _ hj, h1]
    · rw [if_neg hB, if_neg hB]

/-- C177: with a group of automorphisms, `log_val` is the same for symmetry-related configurations, whatever the parameters. -/
theorem C177_invariant (c : Cfg) (P : Nat) (perm : Nat → Nat → Nat) (hs : c.sym = some (P, perm)) (hm : c.m = c.alpha * P)
    (G : IsPermGroup c.n P perm) (p : List ℂ) (x : Nat → ℂ) (h : Nat) (hh : h < P) :
    logVal c p (fun i => x (perm h i)) = logVal c p x := by
  obtain ⟨s, T⟩ := exists_translate c.n P perm G h hh
  have eb : bare c p = setBare c P perm p := by unfold bare; rw [hs]
  have e : ∀ y : Nat → ℂ, ∑ j ∈ range c.m, logCosh1 (theta c (setBare c P perm p) y j)
      = ∑ f ∈ range c.alpha, ∑ g ∈ range P, logCosh1 (theta c (setBare c P perm p) y (f * P + g)) := by
    intro y
    rw [hm, sum_range_flat]
  have e2 : ∑ j ∈ range c.m, logCosh1 (theta c (setBare c P perm p) (fun i => x (perm h i)) j)
      = ∑ j ∈ range c.m, logCosh1 (theta c (setBare c P perm p) x j) := by
    rw [e, e]
    refine sum_congr rfl fun f hf => ?_
    rw [← sum_range_perm T.1.1 T.1.2.1 fun g => logCosh1 (theta c (setBare c P perm p) (fun i => x (perm h i)) (f * P + g))]
    refine sum_congr rfl fun g hg => ?_
    congr 1
    rw [theta_symm c P perm hm p _ f _ (mem_range.1 hf) (T.1.1 g (mem_range.1 hg)), theta_symm c P perm hm p _ f g (mem_range.1 hf) (mem_range.1 hg)]
    congr 1
    rw [← sum_range_perm (G.lt h hh) (G.inj h hh) fun i => x i * ent p (offWs c + (perm g i * c.alpha + f))]
    exact sum_congr rfl fun i hi => by rw [T.2 g (mem_range.1 hg) i (mem_range.1 hi)]
  unfold logVal logValBuf
  simp only [eb, e2]
  by_cases hA : c.useA = true
  · rw [if_pos hA, if_pos hA]
    congr 1
    have ea : ∀ i < c.n, ent (setBare c P perm p) i = ent p 0 := by
      intro i hi
      rw [setBare_three, hA, ent, three_a _ _ _ _ _ _ _ i hi]
    have el : ∀ y : Nat → ℂ, ∑ i ∈ range c.n, y i * ent (setBare c P perm p) i = ∑ i ∈ range c.n, y i * ent p 0 :=
      fun y => sum_congr rfl fun i hi => by rw [ea i (mem_range.1 hi)]
    rw [el x, el fun i => x (perm h i)]
    exact sum_range_perm (G.lt h hh) (G.inj h hh) fun i => x i * ent p 0
  · rw [if_neg hA, if_neg hA]

/-! ## Derivatives -/

theorem prod_cosh_deriv (m : Nat) (f : Nat → ℂ → ℂ) (f' : Nat → ℂ) (t : ℂ) (hf : ∀ j < m, HasDerivAt (f j) (f' j) t)
    (h0 : ∀ j < m, Complex.cosh (f j t) ≠ 0) :
    HasDerivAt (fun u => ∏ j ∈ range m, Complex.cosh (f j u))
      ((∏ j ∈ range m, Complex.cosh (f j t)) * ∑ j ∈ range m, Complex.tanh (f j t) * f' j) t := by
  induction m with
  | zero => simpa using hasDerivAt_const t (1 : ℂ)
  | succ m ih =>
    have h1 := ih (fun j hj => hf j (by omega)) fun j hj => h0 j (by omega)
    have h2 := (hf m (by omega)).ccosh
    have h3 := h1.mul h2
    simp only [prod_range_succ, sum_range_succ]
    refine h3.congr_deriv ?_
    have hc := h0 m (by omega)
    rw [Complex.tanh_eq_sinh_div_cosh]
    field_simp

theorem ent_set (p : List ℂ) (k : Nat) (hk : k < p.length) (t : ℂ) (r : Nat) :
    ent (p.set k t) r = if r = k then t else ent p r := by
  unfold ent
  rw [List.getD_eq_getElem?_getD, List.getElem?_set, List.getD_eq_getElem?_getD]
  by_cases h : k = r
  · subst h; simp [hk]
  · rw [if_neg h, if_neg (fun e => h e.symm)]

theorem ent_set_deriv (p : List ℂ) (k : Nat) (hk : k < p.length) (r : Nat) (t : ℂ) :
    HasDerivAt (fun u => ent (p.set k u) r) (if r = k then 1 else 0) t := by
  by_cases h : r = k
  · simp only [h, if_true]
    have : (fun u => ent (p.set k u) k) = fun u : ℂ => u := by funext u; rw [ent_set p k hk]; simp
    rw [this]; exact hasDerivAt_id t
  · simp only [h, if_false]
    have : (fun u => ent (p.set k u) r) = fun _ : ℂ => ent p r := by funext u; rw [ent_set p k hk]; simp [h]
    rw [this]; exact hasDerivAt_const t _

/-- the amplitude which belongs to a parameter vector: the documented formula, with the bare parameters of the machine. -/
noncomputable def amplitude (c : Cfg) (p : List ℂ) (x : Nat → ℂ) : ℂ :=
  psi c.n c.m (fun i => if c.useA then ent (bare c p) i else 0) (fun j => if c.useB then ent (bare c p) (offB c + j) else 0)
    (fun i j => ent (bare c p) (offW c + (i * c.m + j))) x

theorem amplitude_theta (c : Cfg) (p : List ℂ) (x : Nat → ℂ) : amplitude c p x
    = Complex.exp (if c.useA then ∑ i ∈ range c.n, x i * ent (bare c p) i else 0)
      * ∏ j ∈ range c.m, Complex.cosh (theta c (bare c p) x j) := by
  unfold amplitude psi
  congr 1
  · congr 1
    by_cases hA : c.useA = true
    · simp only [hA, if_true]
      exact sum_congr rfl fun i _ => mul_comm _ _
    · simp [hA]
  · refine prod_congr rfl fun j _ => ?_
    unfold theta
    congr 2
    exact sum_congr rfl fun i _ => mul_comm _ _

/-- C177: `der_log` is the gradient of the logarithm of the amplitude: its entry `k` times the amplitude is the derivative of the amplitude
    with respect to entry `k` of `parameters`, with and without symmetries. -/
theorem C177_der_log (c : Cfg) (p : List ℂ) (hp : p.length = nPar c) (x : Nat → ℂ) (k : Nat) (hk : k < nPar c)
    (h0 : ∀ j < c.m, Complex.cosh (theta c (bare c p) x j) ≠ 0) :
    HasDerivAt (fun t => amplitude c (p.set k t) x) (amplitude c p x * ent (derLog c p x) k) (ent p k) := by
  have hkl : k < p.length := by omega
  have hself : p.set k (ent p k) = p := by
    unfold ent
    rw [List.getD_eq_getElem?_getD, List.getElem?_eq_getElem hkl]
    simp
  set t0 := ent p k with ht0
  have hbw : ∀ i < c.n, ∀ j < c.m, HasDerivAt (fun t => ent (bare c (p.set k t)) (offW c + (i * c.m + j)))
      (if rowOf c (offW c + (i * c.m + j)) = k then 1 else 0) t0 := by
    intro i hi j hj
    simp only [fun t => bare_w c (p.set k t) i j hi hj]
    exact ent_set_deriv p k hkl _ t0
  have htheta : ∀ j < c.m, HasDerivAt (fun t => theta c (bare c (p.set k t)) x j)
      (∑ i ∈ range c.n, x i * (if rowOf c (offW c + (i * c.m + j)) = k then 1 else 0)
        + if c.useB then (if rowOf c (offB c + j) = k then 1 else 0) else 0) t0 := by
    intro j hj
    unfold theta
    refine HasDerivAt.add ?_ ?_
    · refine HasDerivAt.fun_sum fun i hi => ?_
      exact (hbw i (mem_range.1 hi) j hj).const_mul (x i)
    · by_cases hB : c.useB = true
      · simp only [hB, if_true, fun t => bare_b c (p.set k t) hB j hj]
        exact ent_set_deriv p k hkl _ t0
      · simp only [hB]
        exact hasDerivAt_const t0 _
  have hvis : HasDerivAt (fun t => if c.useA then ∑ i ∈ range c.n, x i * ent (bare c (p.set k t)) i else 0)
      (if c.useA then ∑ i ∈ range c.n, x i * (if rowOf c i = k then 1 else 0) else 0) t0 := by
    by_cases hA : c.useA = true
    · simp only [hA, if_true]
      refine HasDerivAt.fun_sum fun i hi => ?_
      simp only [fun t => bare_a c (p.set k t) hA i (mem_range.1 hi)]
      exact (ent_set_deriv p k hkl _ t0).const_mul (x i)
    · simp only [hA]
      exact hasDerivAt_const t0 _
  have hprod := prod_cosh_deriv c.m (fun j t => theta c (bare c (p.set k t)) x j) _ t0 htheta (by
    intro j hj
    simp only [hself]
    exact h0 j hj)
  have hmain := hvis.cexp.mul hprod
  simp only [fun t => amplitude_theta c (p.set k t) x]
  refine hmain.congr_deriv ?_
  simp only [hself]
  rw [amplitude_theta, derLog_ent c p x k hk, nBare_split]
  have e1 : (if c.useA = true then ∑ i ∈ range c.n, ent (bareDerLog c (bare c p) x) i * (if rowOf c i = k then 1 else 0) else 0)
      = if c.useA then ∑ i ∈ range c.n, x i * (if rowOf c i = k then 1 else 0) else 0 := by
    by_cases hA : c.useA = true
    · rw [if_pos hA, if_pos hA]
      refine sum_congr rfl fun i hi => ?_
      rw [bareDerLog_three, hA, ent, three_a _ _ _ _ _ _ _ i (mem_range.1 hi)]
    · rw [if_neg hA, if_neg hA]
  have e2 : (if c.useB = true then ∑ j ∈ range c.m, ent (bareDerLog c (bare c p) x) (offB c + j)
        * (if rowOf c (offB c + j) = k then 1 else 0) else 0)
      = ∑ j ∈ range c.m, Complex.tanh (theta c (bare c p) x j) * (if c.useB then (if rowOf c (offB c + j) = k then 1 else 0) else 0) := by
    by_cases hB : c.useB = true
    · rw [if_pos hB]
      refine sum_congr rfl fun j hj => ?_
      rw [bareDerLog_three, hB, ent]
      unfold offB
      rw [three_b _ _ _ _ _ _ _ j (mem_range.1 hj), if_pos rfl]
    · rw [if_neg hB]
      simp [hB]
  have e3 : ∑ i ∈ range c.n, ∑ j ∈ range c.m, ent (bareDerLog c (bare c p) x) (offW c + (i * c.m + j))
        * (if rowOf c (offW c + (i * c.m + j)) = k then 1 else 0)
      = ∑ j ∈ range c.m, Complex.tanh (theta c (bare c p) x j)
          * ∑ i ∈ range c.n, x i * (if rowOf c (offW c + (i * c.m + j)) = k then 1 else 0) := by
    rw [sum_comm]
    refine sum_congr rfl fun j hj => ?_
    rw [mul_sum]
    refine sum_congr rfl fun i hi => ?_
    rw [bareDerLog_three, offW_eq, ent, three_w _ _ _ _ _ _ _ _ i j (mem_range.1 hi) (mem_range.1 hj)]
    ring
  rw [e1, e2, e3]
  simp only [mul_add, sum_add_distrib]
  ring

/-- C177: `der_log` has one entry per parameter. -/
theorem C177_der_log_length (c : Cfg) (p : List ℂ) (x : Nat → ℂ) : (derLog c p x).length = nPar c := by
  unfold derLog nPar
  cases hs : c.sym with
  | none => exact bareDerLog_length c p x
  | some s => simp [nPar, hs]

/-! ## Parameters and construction -/

/-- C177: the number of parameters. -/
theorem C177_n_par (c : Cfg) :
    (c.sym = none → nPar c = (if c.useA then c.n else 0) + (if c.useB then c.m else 0) + c.n * c.m)
    ∧ (c.sym ≠ none → nPar c = (if c.useA then 1 else 0) + (if c.useB then c.alpha else 0) + c.n * c.alpha) := by
  constructor
  · intro h; unfold nPar; rw [h]; rfl
  · intro h
    unfold nPar
    cases hs : c.sym with
    | none => exact absurd hs h
    | some s => rfl

/-- C177: assigning `parameters` stores exactly the given vector (its real part in a real machine), and a vector of another length is
    rejected. -/
theorem C177_parameters (c : Cfg) (p : List ℂ) :
    (p.length = nPar c → c.real = false → setParameters c p = .ok p)
    ∧ (p.length = nPar c → c.real = true → ∃ q, setParameters c p = .ok q ∧ q.length = nPar c ∧ ∀ k, ent q k = ((ent p k).re : ℂ))
    ∧ (p.length ≠ nPar c → setParameters c p = .error .valueError) := by
  refine ⟨fun h hr => ?_, fun h hr => ⟨p.map fun z => (z.re : ℂ), ?_, ?_, ?_⟩, fun h => ?_⟩
  · unfold setParameters; rw [if_neg (by omega), hr]; rfl
  · unfold setParameters; rw [if_neg (by omega), hr]; rfl
  · simpa using h
  · intro k
    unfold ent
    rw [List.getD_eq_getElem?_getD, List.getElem?_map, List.getD_eq_getElem?_getD]
    cases p[k]? <;> simp
  · unfold setParameters; rw [if_pos h]

theorem pyRound_int (z : Int) : pyRound (z : ℚ) = z := by
  unfold pyRound
  simp

theorem pyRound_near (q : ℚ) : |q - pyRound q| ≤ 1 / 2 := by
  have h1 := Int.floor_le q
  have h2 := Int.lt_floor_add_one q
  unfold pyRound
  simp only
  split
  · rename_i h; rw [abs_of_nonneg (by linarith)]; linarith
  · split
    · rename_i h h'
      push_cast
      rw [abs_of_nonpos (by linarith)]; linarith
    · rename_i h h'
      have e : q - ⌊q⌋ = 1 / 2 := le_antisymm (not_lt.1 h') (not_lt.1 h)
      split
      · rw [e, abs_of_nonneg (by norm_num)]
      · push_cast
        rw [show q - ((⌊q⌋ : ℚ) + 1) = -(1 / 2) by linarith, abs_neg, abs_of_nonneg (by norm_num)]

/-- C177: the hidden units of a machine without symmetries: the given number, or the nearest integer to `alpha` times the number of sites; a
    contradiction between the two and negative values are rejected. -/
theorem C177_hidden (size : Nat) :
    (∀ h : Int, 0 ≤ h → getHidden none size (some h) none = .ok (h, h))
    ∧ (∀ h : Int, h < 0 → getHidden none size (some h) none = .error .runtimeError)
    ∧ (∀ a : Alpha, 0 ≤ a.val → ∃ m : Int, getHidden none size none (some a) = .ok (m, m) ∧ |a.val * size - m| ≤ 1 / 2)
    ∧ (∀ (a : Alpha) (nh : Option Int), a.val < 0 → getHidden none size nh (some a) = .error .valueError)
    ∧ (∀ (z h : Int), 0 ≤ z → getHidden none size (some h) (some (.int z)) = if h = z * size then .ok (h, h) else .error .runtimeError) := by
  refine ⟨fun h hh => ?_, fun h hh => ?_, fun a ha => ⟨pyRound (a.val * size), ?_, pyRound_near _⟩, fun a nh ha => ?_, fun z h hz => ?_⟩
  · simp only [getHidden]; rw [if_neg (by omega)]
  · simp only [getHidden]; rw [if_pos hh]
  · simp only [getHidden]; rw [if_neg (not_lt.2 ha)]
  · simp only [getHidden]; rw [if_pos ha]
  · have e : pyRound ((Alpha.int z).val * (size : ℚ)) = z * size := by
      have : (Alpha.int z).val * (size : ℚ) = ((z * size : Int) : ℚ) := by simp [Alpha.val]
      rw [this, pyRound_int]
    simp only [getHidden, e]
    rw [if_neg (by simp only [Alpha.val, not_lt]; exact_mod_cast hz)]
    by_cases h1 : h = z * size
    · rw [if_neg (by simpa using h1), if_pos h1, h1]
    · rw [if_pos h1, if_neg h1]

/-- C177: with symmetries the number of hidden units is a multiple of the number of automorphisms, at most `alpha` times the number of sites,
    and as large as possible; `alpha` must be an integer. -/
theorem C177_hidden_symm (size rows : Nat) (hr : 0 < rows) (nh : Option Int) :
    (∀ z : Nat, ∃ al : Nat, getHidden (some (rows, size)) size nh (some (.int z)) = .ok ((al : Int) * rows, al)
      ∧ al * rows ≤ z * size ∧ z * size < (al + 1) * rows)
    ∧ (∀ q : ℚ, getHidden (some (rows, size)) size nh (some (.real q)) = .error .valueError)
    ∧ getHidden (some (rows, size)) size nh none = .error .valueError
    ∧ (∀ (cols : Nat) (a : Option Alpha), cols ≠ size → getHidden (some (rows, cols)) size nh a = .error .runtimeError) := by
  have h0 : ¬ (rows = 0 ∨ size ≠ size) := by simp; omega
  refine ⟨fun z => ⟨z * size / rows, ?_, Nat.div_mul_le_self _ _, ?_⟩, fun q => ?_, ?_, fun cols a h => ?_⟩
  · simp only [getHidden]
    rw [if_neg h0]
    have : ((z : Int) * (size : Int)).tdiv (rows : Int) = ((z * size / rows : Nat) : Int) := by
      rw [← Int.natCast_mul, Int.ofNat_tdiv]
    rw [this]
  · rw [Nat.add_mul, Nat.one_mul]
    exact Nat.lt_div_mul_add hr
  · simp only [getHidden]; rw [if_neg h0]
  · simp only [getHidden]; rw [if_neg h0]
  · simp only [getHidden]; rw [if_pos (Or.inr h)]

/-- C177: a machine built with symmetries satisfies the assumptions of the theorems above. -/
theorem C177_built (size rows : Nat) (hr : 0 < rows) (perm : Nat → Nat → Nat) (z : Nat) (nh : Option Int) (uA uB real : Bool) :
    ∃ c, mkRbm size nh (some (.int z)) uA uB (some (rows, size, perm)) real = .ok c
      ∧ c.n = size ∧ c.sym = some (rows, perm) ∧ c.m = c.alpha * rows ∧ c.useA = uA ∧ c.useB = uB ∧ c.real = real := by
  obtain ⟨al, h, -, -⟩ := (C177_hidden_symm size rows hr nh).1 z
  refine ⟨⟨size, al * rows, uA, uB, some (rows, perm), al, real⟩, ?_, rfl, rfl, rfl, rfl, rfl, rfl⟩
  unfold mkRbm
  simp only [Option.map_some, h]
  rw [if_neg (not_lt.2 (by exact_mod_cast Nat.zero_le (al * rows)))]
  rw [← Int.natCast_mul, Int.toNat_natCast, Int.toNat_natCast]

/-! ## Examples -/

example : mkRbm 4 none (some (.real (3 / 8))) true true none false = .ok ⟨4, 2, true, true, none, 2, false⟩
    ∧ mkRbm 4 (some 3) (some (.int 2)) true true none false = .error .runtimeError
    ∧ mkRbm 4 none none true true none false = .error .typeError := by
  refine ⟨?_, ?_, ?_⟩ <;> simp [mkRbm, getHidden, pyRound, Alpha.val] <;> norm_num
  rfl

/-- a machine with two sites and the swap. -/
def demo : Cfg := ⟨2, 4, true, true, some (2, fun g i => if g = 0 then i else 1 - i), 2, false⟩

example : nPar demo = 7 ∧ nBare demo = 14 ∧ IsPermGroup 2 2 (fun g i => if g = 0 then i else 1 - i) ∧ demo.m = demo.alpha * 2 := by
  refine ⟨rfl, rfl, ⟨by decide, by decide, by decide, by decide⟩, rfl⟩

example : derRows demo 2 (fun g i => if g = 0 then i else 1 - i) = [0, 0, 1, 1, 2, 2, 3, 5, 4, 6, 5, 3, 6, 4] := by decide

end Verif.LegacyMachine
