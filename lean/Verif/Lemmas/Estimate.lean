import Verif.Lemmas.Ergodic
import Verif.Spec.Estimate
import Mathlib.LinearAlgebra.Dimension.Finrank
import Mathlib.LinearAlgebra.FiniteDimensional.Lemmas
import Mathlib.LinearAlgebra.Dimension.Constructions
import Mathlib.Tactic.Linarith
import Mathlib.Tactic.Positivity
import Mathlib.Tactic.Ring
import Mathlib.Tactic.FieldSimp

/-! Mean-square error of averages along irreducible chains. -/

namespace Verif.Markov

open Finset

variable {X : Type} [DecidableEq X] {S : Finset X} {π : X → ℝ} {P : X → X → ℝ}

/-- Poisson's equation. -/
theorem poisson (hs : Stochastic S P) (hst : Stationary S π P) (hp : ∀ x ∈ S, 0 < π x)
    (hi : Irreducible S P) (f : X → ℝ) (hf : ∑ x ∈ S, π x * f x = 0) :
    ∃ g : X → ℝ, ∀ x ∈ S, g x - ∑ y ∈ S, P x y * g y = f x := by
  rcases S.eq_empty_or_nonempty with he | ⟨x0, h0⟩
  · subst he; exact ⟨0, by simp⟩
  let L : (S → ℝ) →ₗ[ℝ] (S → ℝ) :=
    { toFun := fun g x => g x - ∑ y : S, P x y * g y
      map_add' := fun a b => by
        funext x
        simp only [Pi.add_apply, mul_add, Finset.sum_add_distrib]; ring
      map_smul' := fun c a => by
        funext x
        simp only [Pi.smul_apply, smul_eq_mul, RingHom.id_apply, mul_sub, Finset.mul_sum]
        congr 1
        exact Finset.sum_congr rfl fun y _ => by ring }
  let φ : (S → ℝ) →ₗ[ℝ] ℝ :=
    { toFun := fun g => ∑ x : S, π x * g x
      map_add' := fun a b => by simp only [Pi.add_apply, mul_add, Finset.sum_add_distrib]
      map_smul' := fun c a => by
        simp only [Pi.smul_apply, smul_eq_mul, RingHom.id_apply, Finset.mul_sum]
        exact Finset.sum_congr rfl fun y _ => by ring }
  have hker : LinearMap.ker L = Submodule.span ℝ {fun _ => (1 : ℝ)} := by
    ext g
    rw [LinearMap.mem_ker, Submodule.mem_span_singleton]
    constructor
    · intro h
      have h1 : ∀ x ∈ S, ∑ y ∈ S, P x y * (fun z => if hz : z ∈ S then g ⟨z, hz⟩ else 0) y
          = (fun z => if hz : z ∈ S then g ⟨z, hz⟩ else 0) x := by
        intro x hx
        have h2 : g ⟨x, hx⟩ - ∑ y : S, P x y * g y = 0 := congrFun h ⟨x, hx⟩
        rw [← Finset.sum_coe_sort S]
        simp only [Finset.coe_mem, dite_true, hx]
        linarith
      have h3 := harmonic_const hs hi _ h1
      refine ⟨g ⟨x0, h0⟩, ?_⟩
      funext x
      have := h3 x0 h0 x.1 x.2
      simp only [h0, x.2, dite_true] at this
      simp [this]
    · rintro ⟨c, rfl⟩
      funext x
      show c • (1 : ℝ) - ∑ y : S, P x y * (c • (1 : ℝ)) = 0
      simp only [smul_eq_mul, mul_one]
      rw [← Finset.sum_mul, Finset.sum_coe_sort S (fun y => P x y), hs.2 x.1 x.2]; ring
  have hle : LinearMap.range L ≤ LinearMap.ker φ := by
    rintro _ ⟨g, rfl⟩
    show ∑ x : S, π x * (g x - ∑ y : S, P x y * g y) = 0
    simp only [mul_sub, Finset.sum_sub_distrib, Finset.mul_sum]
    rw [Finset.sum_comm (f := fun (x y : S) => π x * (P x y * g y))]
    rw [sub_eq_zero]
    refine Finset.sum_congr rfl fun y _ => ?_
    have : ∑ x : S, π x * P x y = π y := by
      rw [Finset.sum_coe_sort S (fun x => π x * P x y)]; exact hst y.1 y.2
    rw [← this, Finset.sum_mul]
    exact Finset.sum_congr rfl fun x _ => by ring
  have hφ : LinearMap.range φ = ⊤ := by
    rw [LinearMap.range_eq_top]
    intro r
    refine ⟨fun x => if x.1 = x0 then r / π x0 else 0, ?_⟩
    show ∑ x : S, π x * (if x.1 = x0 then r / π x0 else 0) = r
    rw [Finset.sum_coe_sort S (fun x => π x * (if x = x0 then r / π x0 else 0))]
    simp [h0, mul_div_cancel₀ _ (hp x0 h0).ne']
  have e1 := LinearMap.finrank_range_add_finrank_ker L
  have e2 := LinearMap.finrank_range_add_finrank_ker φ
  have hone : (fun _ => (1 : ℝ) : S → ℝ) ≠ 0 := fun e => by
    have := congrFun e ⟨x0, h0⟩
    simp at this
  rw [hker, finrank_span_singleton hone] at e1
  rw [hφ, finrank_top, Module.finrank_self] at e2
  have heq : LinearMap.range L = LinearMap.ker φ :=
    Submodule.eq_of_le_of_finrank_eq hle (by omega)
  have hmem : (fun x : S => f x) ∈ LinearMap.ker φ := by
    show ∑ x : S, π x * f x = 0
    rw [Finset.sum_coe_sort S (fun x => π x * f x)]; exact hf
  rw [← heq] at hmem
  obtain ⟨g, hg⟩ := hmem
  refine ⟨fun z => if hz : z ∈ S then g ⟨z, hz⟩ else 0, fun x hx => ?_⟩
  have h2 : g ⟨x, hx⟩ - ∑ y : S, P x y * g y = f x := congrFun hg ⟨x, hx⟩
  rw [← Finset.sum_coe_sort S]
  simp only [Finset.coe_mem, dite_true, hx]
  exact h2

/-! ### expected values -/

theorem pathE_mono (hs : Stochastic S P) (n : Nat) : ∀ x ∈ S, ∀ F G : List X → ℝ,
    (∀ xs, xs.length = n → (∀ y ∈ xs, y ∈ S) → F xs ≤ G xs) → pathE S P n x F ≤ pathE S P n x G := by
  induction n with
  | zero => intro x _ F G h; exact h [] rfl (by simp)
  | succ n ih =>
    intro x hx F G h
    refine Finset.sum_le_sum fun y hy => mul_le_mul_of_nonneg_left ?_ (hs.1 x hx y hy)
    refine ih y hy _ _ fun xs hl hm => h (y :: xs) (by simp [hl]) ?_
    intro z hz
    rcases List.mem_cons.1 hz with rfl | hz
    · exact hy
    · exact hm z hz

theorem pathE_congr (hs : Stochastic S P) (n : Nat) {x : X} (hx : x ∈ S) {F G : List X → ℝ}
    (h : ∀ xs, xs.length = n → (∀ y ∈ xs, y ∈ S) → F xs = G xs) : pathE S P n x F = pathE S P n x G :=
  le_antisymm (pathE_mono hs n x hx F G fun xs h1 h2 => (h xs h1 h2).le)
    (pathE_mono hs n x hx G F fun xs h1 h2 => (h xs h1 h2).ge)

theorem pathE_const (hs : Stochastic S P) (n : Nat) (c : ℝ) : ∀ x ∈ S, pathE S P n x (fun _ => c) = c := by
  induction n with
  | zero => intro x _; rfl
  | succ n ih =>
    intro x hx
    simp only [pathE]
    rw [Finset.sum_congr rfl fun y hy => by rw [ih y hy], ← Finset.sum_mul, hs.2 x hx, one_mul]

theorem pathE_add (n : Nat) : ∀ (x : X) (F G : List X → ℝ),
    pathE S P n x (fun xs => F xs + G xs) = pathE S P n x F + pathE S P n x G := by
  induction n with
  | zero => intro x F G; rfl
  | succ n ih =>
    intro x F G
    simp only [pathE]
    rw [← Finset.sum_add_distrib]
    exact Finset.sum_congr rfl fun y _ => by rw [ih y]; ring

theorem pathE_mul (n : Nat) (c : ℝ) : ∀ (x : X) (F : List X → ℝ),
    pathE S P n x (fun xs => c * F xs) = c * pathE S P n x F := by
  induction n with
  | zero => intro x F; rfl
  | succ n ih =>
    intro x F
    simp only [pathE]
    rw [Finset.mul_sum]
    exact Finset.sum_congr rfl fun y _ => by rw [ih y]; ring

/-- the expected sum of `f`, and of its square, along one chain. -/
theorem path_moments (hs : Stochastic S P) (hst : Stationary S π P) (hp : ∀ x ∈ S, 0 < π x)
    (hi : Irreducible S P) (f : X → ℝ) (hf : ∑ x ∈ S, π x * f x = 0) :
    ∃ B C : ℝ, 0 ≤ B ∧ 0 ≤ C ∧ ∀ n : Nat, ∀ x ∈ S,
      |pathE S P n x fun xs => (xs.map f).sum| ≤ B ∧
      pathE S P n x (fun xs => (xs.map f).sum ^ 2) ≤ n * C := by
  obtain ⟨g, hg⟩ := poisson hs hst hp hi f hf
  let h : X → ℝ := fun x => ∑ y ∈ S, P x y * g y
  have hsum : ∀ (φ : X → ℝ), ∀ x ∈ S, |φ x| ≤ ∑ y ∈ S, |φ y| := fun φ x hx =>
    Finset.single_le_sum (f := fun y => |φ y|) (fun y _ => abs_nonneg _) hx
  set H : ℝ := ∑ y ∈ S, |h y| with hH
  set F : ℝ := ∑ y ∈ S, |f y| with hF
  have hH0 : 0 ≤ H := Finset.sum_nonneg fun y _ => abs_nonneg _
  have hF0 : 0 ≤ F := Finset.sum_nonneg fun y _ => abs_nonneg _
  have hM : ∀ n : Nat, ∀ x ∈ S, |(pathE S P n x fun xs => (xs.map f).sum) - h x| ≤ H := by
    intro n
    induction n with
    | zero =>
      intro x hx
      simp only [pathE, List.map_nil, List.sum_nil, zero_sub, abs_neg]
      exact hsum h x hx
    | succ n ih =>
      intro x hx
      have e : (pathE S P (n + 1) x fun xs => (xs.map f).sum) - h x
          = ∑ y ∈ S, P x y * ((pathE S P n y fun xs => (xs.map f).sum) - h y) := by
        simp only [pathE, List.map_cons, List.sum_cons]
        show _ - ∑ y ∈ S, P x y * g y = _
        rw [← Finset.sum_sub_distrib]
        refine Finset.sum_congr rfl fun y hy => ?_
        rw [pathE_add, pathE_const hs n (f y) y hy, ← hg y hy]
        ring
      rw [e]
      refine (Finset.abs_sum_le_sum_abs _ _).trans ?_
      calc ∑ y ∈ S, |P x y * ((pathE S P n y fun xs => (xs.map f).sum) - h y)|
          ≤ ∑ y ∈ S, P x y * H := Finset.sum_le_sum fun y hy => by
            rw [abs_mul, abs_of_nonneg (hs.1 x hx y hy)]
            exact mul_le_mul_of_nonneg_left (ih y hy) (hs.1 x hx y hy)
        _ = H := by rw [← Finset.sum_mul, hs.2 x hx, one_mul]
  have hB : ∀ n : Nat, ∀ x ∈ S, |pathE S P n x fun xs => (xs.map f).sum| ≤ 2 * H := by
    intro n x hx
    have h1 := abs_le.1 (hM n x hx)
    have h2 := abs_le.1 (hsum h x hx)
    rw [← hH] at h2
    exact abs_le.2 ⟨by linarith [h1.1, h2.1], by linarith [h1.2, h2.2]⟩
  refine ⟨2 * H, F ^ 2 + 2 * F * (2 * H), by positivity, by positivity, fun n x hx => ⟨hB n x hx, ?_⟩⟩
  induction n generalizing x with
  | zero => simp [pathE]
  | succ n ih =>
    have hstep : ∀ y ∈ S, (pathE S P n y fun xs => (((y :: xs).map f).sum) ^ 2)
        ≤ F ^ 2 + 2 * F * (2 * H) + n * (F ^ 2 + 2 * F * (2 * H)) := by
      intro y hy
      have e : (fun xs : List X => (((y :: xs).map f).sum) ^ 2)
          = fun xs => (f y ^ 2 + (2 * f y) * (xs.map f).sum) + (xs.map f).sum ^ 2 := by
        funext xs
        simp only [List.map_cons, List.sum_cons]; ring
      rw [e, pathE_add, pathE_add, pathE_const hs n _ y hy, pathE_mul]
      have h1 := ih y hy
      have h2 := hB n y hy
      have h3 := hsum f y hy
      have h4 : f y ^ 2 ≤ F ^ 2 := by
        rw [← sq_abs]; exact pow_le_pow_left₀ (abs_nonneg _) h3 2
      have h5 : 2 * f y * (pathE S P n y fun xs => (xs.map f).sum) ≤ 2 * F * (2 * H) := by
        have h6 := le_abs_self (f y * (pathE S P n y fun xs => (xs.map f).sum))
        rw [abs_mul] at h6
        have h7 : |f y| * |pathE S P n y fun xs => (xs.map f).sum| ≤ F * (2 * H) :=
          mul_le_mul h3 h2 (abs_nonneg _) hF0
        linarith
      linarith
    simp only [pathE]
    calc ∑ y ∈ S, P x y * (pathE S P n y fun xs => (((y :: xs).map f).sum) ^ 2)
        ≤ ∑ y ∈ S, P x y * (F ^ 2 + 2 * F * (2 * H) + n * (F ^ 2 + 2 * F * (2 * H))) :=
          Finset.sum_le_sum fun y hy => mul_le_mul_of_nonneg_left (hstep y hy) (hs.1 x hx y hy)
      _ = (n + 1 : ℕ) * (F ^ 2 + 2 * F * (2 * H)) := by
          rw [← Finset.sum_mul, hs.2 x hx]; push_cast; ring

/-! ### several chains -/

theorem chainsE_mono (hs : Stochastic S P) (n : Nat) (starts : List X) (hst : ∀ x ∈ starts, x ∈ S) :
    ∀ F G : List (List X) → ℝ,
    (∀ trs, trs.length = starts.length → (∀ tr ∈ trs, tr.length = n ∧ ∀ y ∈ tr, y ∈ S) → F trs ≤ G trs) →
    chainsE S P n starts F ≤ chainsE S P n starts G := by
  induction starts with
  | nil => intro F G h; exact h [] rfl (by simp)
  | cons x xs ih =>
    intro F G h
    refine pathE_mono hs n x (hst x (by simp)) _ _ fun tr hl hm => ?_
    refine ih (fun y hy => hst y (by simp [hy])) _ _ fun trs h1 h2 => h (tr :: trs) (by simp [h1]) ?_
    intro t ht
    rcases List.mem_cons.1 ht with rfl | ht
    · exact ⟨hl, hm⟩
    · exact h2 t ht

theorem chainsE_congr (hs : Stochastic S P) (n : Nat) (starts : List X) (hst : ∀ x ∈ starts, x ∈ S)
    {F G : List (List X) → ℝ}
    (h : ∀ trs, trs.length = starts.length → (∀ tr ∈ trs, tr.length = n ∧ ∀ y ∈ tr, y ∈ S) → F trs = G trs) :
    chainsE S P n starts F = chainsE S P n starts G :=
  le_antisymm (chainsE_mono hs n starts hst F G fun t h1 h2 => (h t h1 h2).le)
    (chainsE_mono hs n starts hst G F fun t h1 h2 => (h t h1 h2).ge)

theorem chainsE_const (hs : Stochastic S P) (n : Nat) (c : ℝ) (starts : List X) (hst : ∀ x ∈ starts, x ∈ S) :
    chainsE S P n starts (fun _ => c) = c := by
  induction starts with
  | nil => rfl
  | cons x xs ih =>
    simp only [chainsE]
    rw [ih fun y hy => hst y (by simp [hy])]
    exact pathE_const hs n c x (hst x (by simp))

theorem chainsE_add (n : Nat) (starts : List X) : ∀ F G : List (List X) → ℝ,
    chainsE S P n starts (fun t => F t + G t) = chainsE S P n starts F + chainsE S P n starts G := by
  induction starts with
  | nil => intro F G; rfl
  | cons x xs ih =>
    intro F G
    simp only [chainsE]
    rw [← pathE_add]
    congr 1
    funext tr
    exact ih _ _

theorem chainsE_mul (n : Nat) (c : ℝ) (starts : List X) : ∀ F : List (List X) → ℝ,
    chainsE S P n starts (fun t => c * F t) = c * chainsE S P n starts F := by
  induction starts with
  | nil => intro F; rfl
  | cons x xs ih =>
    intro F
    simp only [chainsE]
    rw [← pathE_mul]
    congr 1
    funext tr
    exact ih _

/-- sum of `f` over all configurations. -/
def total (f : X → ℝ) (trs : List (List X)) : ℝ := (trs.flatten.map f).sum

theorem total_cons (f : X → ℝ) (tr : List X) (trs : List (List X)) :
    total f (tr :: trs) = (tr.map f).sum + total f trs := by
  simp [total, List.flatten_cons, List.map_append, List.sum_append]

theorem chains_moments (hs : Stochastic S P) {f : X → ℝ} {n : Nat} {B C : ℝ} (hB : 0 ≤ B)
    (h1 : ∀ x ∈ S, |pathE S P n x fun xs => (xs.map f).sum| ≤ B)
    (h2 : ∀ x ∈ S, pathE S P n x (fun xs => (xs.map f).sum ^ 2) ≤ C)
    (starts : List X) (hst : ∀ x ∈ starts, x ∈ S) :
    |chainsE S P n starts (total f)| ≤ starts.length * B ∧
    chainsE S P n starts (fun t => total f t ^ 2) ≤ starts.length * C + (starts.length : ℝ) ^ 2 * B ^ 2 := by
  induction starts with
  | nil => simp [chainsE, total]
  | cons x xs ih =>
    have hx := hst x (by simp)
    have hxs : ∀ y ∈ xs, y ∈ S := fun y hy => hst y (by simp [hy])
    obtain ⟨i1, i2⟩ := ih hxs
    have e1 : chainsE S P n (x :: xs) (total f)
        = (pathE S P n x fun tr => (tr.map f).sum) + chainsE S P n xs (total f) := by
      simp only [chainsE, total_cons]
      have : (fun tr : List X => chainsE S P n xs fun trs => (tr.map f).sum + total f trs)
          = fun tr => (tr.map f).sum + chainsE S P n xs (total f) := by
        funext tr
        rw [chainsE_add, chainsE_const hs n _ xs hxs]
      rw [this, pathE_add, pathE_const hs n _ x hx]
    have e2 : chainsE S P n (x :: xs) (fun t => total f t ^ 2)
        = (pathE S P n x fun tr => (tr.map f).sum ^ 2)
          + 2 * chainsE S P n xs (total f) * (pathE S P n x fun tr => (tr.map f).sum)
          + chainsE S P n xs (fun t => total f t ^ 2) := by
      simp only [chainsE, total_cons]
      have : (fun tr : List X => chainsE S P n xs fun trs => ((tr.map f).sum + total f trs) ^ 2)
          = fun tr => ((tr.map f).sum ^ 2 + (2 * chainsE S P n xs (total f)) * (tr.map f).sum)
              + chainsE S P n xs (fun t => total f t ^ 2) := by
        funext tr
        have : (fun trs : List (List X) => ((tr.map f).sum + total f trs) ^ 2)
            = fun trs => ((tr.map f).sum ^ 2 + (2 * (tr.map f).sum) * total f trs) + total f trs ^ 2 := by
          funext trs; ring
        rw [this, chainsE_add, chainsE_add, chainsE_const hs n _ xs hxs, chainsE_mul]
        ring
      rw [this, pathE_add, pathE_add, pathE_const hs n _ x hx, pathE_mul]
    have hc : ((x :: xs).length : ℝ) = xs.length + 1 := by simp
    rw [e1, e2, hc]
    have p1 := h1 x hx
    have p2 := h2 x hx
    constructor
    · refine (abs_add_le _ _).trans ?_
      linarith
    · have h6 := le_abs_self (chainsE S P n xs (total f) * (pathE S P n x fun tr => (tr.map f).sum))
      rw [abs_mul] at h6
      have h7 : |chainsE S P n xs (total f)| * |pathE S P n x fun tr => (tr.map f).sum| ≤ xs.length * B * B :=
        mul_le_mul i1 p1 (abs_nonneg _) (by positivity)
      nlinarith [sq_nonneg B]

theorem sum_re (l : List ℂ) : l.sum.re = (l.map Complex.re).sum := by
  induction l with
  | nil => simp
  | cons a t ih => simp [ih]

theorem sum_im (l : List ℂ) : l.sum.im = (l.map Complex.im).sum := by
  induction l with
  | nil => simp
  | cons a t ih => simp [ih]

theorem flatten_len {trs : List (List X)} {n : Nat} (h : ∀ tr ∈ trs, tr.length = n) :
    trs.flatten.length = trs.length * n := by
  induction trs with
  | nil => simp
  | cons a t ih =>
    rw [List.flatten_cons, List.length_append, ih fun b hb => h b (by simp [hb]), h a (by simp),
      List.length_cons]
    ring

theorem meanOf_centred (hp : ∀ x ∈ S, 0 < π x) (hne : S.Nonempty) (f : X → ℂ) :
    ∑ x ∈ S, (π x : ℂ) * (f x - meanOf S π f) = 0 := by
  have hpos : (0 : ℝ) < ∑ x ∈ S, π x := Finset.sum_pos hp hne
  have hz : ((∑ x ∈ S, π x : ℝ) : ℂ) ≠ 0 := by exact_mod_cast hpos.ne'
  simp only [mul_sub, Finset.sum_sub_distrib, ← Finset.sum_mul]
  rw [meanOf]
  rw [← Complex.ofReal_sum]
  field_simp
  ring

/-- averages along irreducible chains. -/
theorem estimates_of_irreducible (hs : Stochastic S P) (hst : Stationary S π P) (hp : ∀ x ∈ S, 0 < π x)
    (hi : Irreducible S P) (f : X → ℂ) : Estimates S π P f := by
  rcases S.eq_empty_or_nonempty with he | hne
  · subst he
    refine ⟨0, 0, fun starts h1 h2 => ?_⟩
    obtain ⟨x, hx⟩ := List.exists_mem_of_ne_nil starts h1
    simpa using h2 x hx
  set m := meanOf S π f with hm
  have hcent := meanOf_centred hp hne f
  rw [← hm] at hcent
  have hre : ∑ x ∈ S, π x * (f x - m).re = 0 := by
    have := congrArg Complex.re hcent
    rw [Complex.re_sum] at this
    simpa using this
  have him : ∑ x ∈ S, π x * (f x - m).im = 0 := by
    have := congrArg Complex.im hcent
    rw [Complex.im_sum] at this
    simpa using this
  obtain ⟨B1, C1, hB1, hC1, k1⟩ := path_moments hs hst hp hi (fun x => (f x - m).re) hre
  obtain ⟨B2, C2, hB2, hC2, k2⟩ := path_moments hs hst hp hi (fun x => (f x - m).im) him
  refine ⟨C1 + C2, B1 ^ 2 + B2 ^ 2, fun starts hne' hin n hn => ?_⟩
  have m1 := (chains_moments hs hB1 (fun x hx => (k1 n x hx).1) (fun x hx => (k1 n x hx).2) starts hin).2
  have m2 := (chains_moments hs hB2 (fun x hx => (k2 n x hx).1) (fun x hx => (k2 n x hx).2) starts hin).2
  have hc0 : (0 : ℝ) < starts.length := by exact_mod_cast List.length_pos_iff.2 hne'
  have hn0 : (0 : ℝ) < n := by exact_mod_cast hn
  set N : ℝ := (starts.length : ℝ) * n with hN
  have hN0 : 0 < N := mul_pos hc0 hn0
  have e : chainsE S P n starts (fun trs => ‖average f trs - m‖ ^ 2)
      = (1 / N ^ 2) * (chainsE S P n starts (fun t => total (fun x => (f x - m).re) t ^ 2)
          + chainsE S P n starts (fun t => total (fun x => (f x - m).im) t ^ 2)) := by
    rw [← chainsE_add, ← chainsE_mul]
    refine chainsE_congr hs n starts hin fun trs hl ht => ?_
    have hfl : ((trs.flatten.length : ℕ) : ℂ) = (N : ℂ) := by
      rw [flatten_len fun tr htr => (ht tr htr).1, hl, hN]; push_cast; ring
    have hNc : (N : ℂ) ≠ 0 := by exact_mod_cast hN0.ne'
    have hsub : ∀ l : List X, (l.map fun x => f x - m).sum = (l.map f).sum - (l.length : ℂ) * m := by
      intro l
      induction l with
      | nil => simp
      | cons a t ih => simp only [List.map_cons, List.sum_cons, ih, List.length_cons]; push_cast; ring
    have hav : average f trs - m = (trs.flatten.map fun x => f x - m).sum / (N : ℂ) := by
      rw [average, hfl, hsub, hfl]
      field_simp
    rw [hav, ← Complex.normSq_eq_norm_sq, Complex.normSq_div, Complex.normSq_ofReal, Complex.normSq_apply, sum_re,
      sum_im, List.map_map, List.map_map]
    simp only [total, Function.comp_def]
    field_simp
  rw [e, show (C1 + C2) / N + (B1 ^ 2 + B2 ^ 2) / (n : ℝ) ^ 2
      = (1 / N ^ 2) * ((starts.length * (n * C1) + (starts.length : ℝ) ^ 2 * B1 ^ 2)
        + (starts.length * (n * C2) + (starts.length : ℝ) ^ 2 * B2 ^ 2)) by
    rw [hN]; field_simp; ring]
  exact mul_le_mul_of_nonneg_left (add_le_add m1 m2) (by positivity)

end Verif.Markov
