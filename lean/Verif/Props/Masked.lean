import Verif.Model.AutoReg
import Mathlib.Tactic.Ring

/-! C52: masked layers are autoregressive. -/

namespace Verif.AutoReg

set_option linter.unusedSectionVars false

section
variable {R : Type} [CommSemiring R]

/-- Output site `t` of the layer depends only on input sites up to `t` (strictly before `t` if
    `strict`). `inF`/`outF` are the numbers of features. -/
def Causal (strict : Bool) (size inF outF : Nat) (layer : (Nat → Nat → R) → Nat → Nat → R) : Prop :=
  ∀ (x x' : Nat → Nat → R) (t : Nat), t < size →
    (∀ s, (if strict then s < t else s ≤ t) → ∀ g, g < inF → x s g = x' s g) →
    ∀ f, f < outF → layer x t f = layer x' t f

theorem sum_map_congr {A : Type} (l : List A) (f g : A → R) (h : ∀ a ∈ l, f a = g a) :
    (l.map f).sum = (l.map g).sum := by
  rw [List.map_congr_left h]

theorem channel_lt (inF outF groups f c : Nat) (hg : 0 < groups) (hin : groups ∣ inF)
    (hout : groups ∣ outF) (hf : f < outF) (hc : c < inF / groups) :
    f / (outF / groups) * (inF / groups) + c < inF := by
  obtain ⟨a, rfl⟩ := hin
  obtain ⟨b, rfl⟩ := hout
  rw [Nat.mul_div_cancel_left _ hg] at hc ⊢
  rw [Nat.mul_div_cancel_left _ hg]
  have hb : 0 < b := by
    rcases Nat.eq_zero_or_pos b with h | h
    · simp [h] at hf
    · exact h
  have : f / b < groups := by
    rw [Nat.div_lt_iff_lt_mul hb]; exact hf
  calc f / b * a + c < f / b * a + a := by omega
    _ = (f / b + 1) * a := by ring
    _ ≤ groups * a := Nat.mul_le_mul_right _ this

/-- Dense layers: exclusive layers are strictly causal, the others causal, for all sizes, features,
    kernels and biases. -/
theorem C52_dense (exclusive : Bool) (size inF outF : Nat) (kernel bias : Nat → Nat → R) :
    Causal exclusive size inF outF (maskedDense exclusive size inF outF kernel bias) := by
  intro x x' t _ hx f hf
  simp only [maskedDense]
  congr 1
  refine sum_map_congr _ _ _ fun r hr => ?_
  have hin : 0 < inF := by
    rcases Nat.eq_zero_or_pos inF with h | h
    · simp [h] at hr
    · exact h
  have hcol : (t * outF + f) / outF = t := by
    rw [Nat.add_comm, Nat.add_mul_div_right _ _ (by omega), Nat.div_eq_of_lt hf, Nat.zero_add]
  simp only [kronMask, triu, hcol]
  by_cases h : r / inF + (if exclusive then 1 else 0) ≤ t
  · rw [hx (r / inF) ?_ (r % inF) (Nat.mod_lt _ hin)]
    cases exclusive <;> simp at h ⊢ <;> omega
  · rw [if_neg h]; simp

/-- 1d convolutions, with any dilation and number of feature groups. -/
theorem C52_conv1d (exclusive : Bool) (size K dil inF outF groups : Nat) (hd : 0 < dil)
    (hg : 0 < groups) (hin : groups ∣ inF) (hout : groups ∣ outF)
    (kernel : Nat → Nat → Nat → R) (bias : Nat → R) :
    Causal exclusive size inF outF
      (maskedConv1d exclusive size K dil inF outF groups kernel bias) := by
  intro x x' t ht hx f hf
  simp only [maskedConv1d]
  congr 1
  refine sum_map_congr _ _ _ fun k hk => sum_map_congr _ _ _ fun c hc => ?_
  rw [List.mem_range] at hk hc
  congr 1
  have hch := channel_lt inF outF groups f c hg hin hout hf hc
  simp only [conv1dPad]
  by_cases h : (K - (if exclusive then 0 else 1)) * dil ≤ t + k * dil ∧
      t + k * dil < (K - (if exclusive then 0 else 1)) * dil + (if exclusive then size - dil else size)
  · rw [if_pos h, if_pos h]
    refine hx _ ?_ _ hch
    cases exclusive
    · simp only [Bool.false_eq_true, if_false] at h ⊢
      have : k * dil ≤ (K - 1) * dil := Nat.mul_le_mul_right _ (by omega)
      omega
    · simp only [if_true, Nat.sub_zero] at h ⊢
      have : (k + 1) * dil ≤ K * dil := Nat.mul_le_mul_right _ (by omega)
      rw [Nat.add_mul, Nat.one_mul] at this
      omega
  · rw [if_neg h, if_neg h]

/-- The 1d convolution returns one output per site as long as the chain is not shorter than the
    dilation. The full claim (any chain) is refuted below. -/
theorem C119_conv1d_length_partial (exclusive : Bool) (size K dil : Nat) (hK : 0 < K)
    (hs : exclusive = true → dil ≤ size) :
    convLen (conv1dPadLen exclusive size K dil) K dil = size := by
  obtain ⟨k, rfl⟩ := Nat.exists_eq_add_of_lt hK
  cases exclusive
  · simp [convLen, conv1dPadLen]
  · have := hs rfl
    simp only [convLen, conv1dPadLen, if_true, Nat.sub_zero, Nat.zero_add, Nat.add_sub_cancel]
    rw [Nat.add_mul, Nat.one_mul]
    omega

/-- On a chain shorter than the dilation an exclusive layer returns the wrong number of sites. -/
theorem C119_conv1d_length_refuted :
    ¬ ∀ (exclusive : Bool) (size K dil : Nat), 0 < size → 0 < K → 0 < dil →
      convLen (conv1dPadLen exclusive size K dil) K dil = size := by
  intro h
  have := h true 2 1 3 (by decide) (by decide) (by decide)
  revert this; decide

/-- 2d convolutions: output `(i, j)` depends on the earlier rows and, in row `i`, only on columns
    before `j` (or up to `j`). -/
theorem C52_conv2d (exclusive : Bool) (H W kh kw dh dw inF outF groups : Nat) (hdh : 0 < dh)
    (hdw : 0 < dw) (hg : 0 < groups) (hin : groups ∣ inF) (hout : groups ∣ outF)
    (kernel : Nat → Nat → Nat → Nat → R) (bias : Nat → R) (x x' : Nat → Nat → Nat → R) (i j : Nat)
    (hx : ∀ p q, (p < i ∨ (p = i ∧ if exclusive then q < j else q ≤ j)) →
      ∀ g, g < inF → x p q g = x' p q g) (f : Nat) (hf : f < outF) :
    maskedConv2d exclusive H W kh kw dh dw inF outF groups kernel bias x i j f
      = maskedConv2d exclusive H W kh kw dh dw inF outF groups kernel bias x' i j f := by
  simp only [maskedConv2d]
  congr 1
  refine sum_map_congr _ _ _ fun a ha => sum_map_congr _ _ _ fun b hb =>
    sum_map_congr _ _ _ fun c hc => ?_
  rw [List.mem_range] at ha hb hc
  have hch := channel_lt inF outF groups f c hg hin hout hf hc
  by_cases hm : a + 1 = kh ∧ kw / 2 + (if exclusive then 0 else 1) ≤ b
  · simp only [conv2dMask]
    rw [if_pos hm]; simp
  · congr 1
    simp only [conv2dPad]
    by_cases h : ((kh - 1) * dh ≤ i + a * dh ∧ i + a * dh < (kh - 1) * dh + H) ∧
        (kw / 2 * dw ≤ j + b * dw ∧ j + b * dw < kw / 2 * dw + W)
    · rw [if_pos h, if_pos h]
      obtain ⟨⟨h1, _⟩, ⟨h2, _⟩⟩ := h
      refine hx _ _ ?_ _ hch
      by_cases hak : a + 1 = kh
      · right
        have hb' : b < kw / 2 + (if exclusive then 0 else 1) := by
          by_contra hc
          exact hm ⟨hak, by omega⟩
        have ha' : a = kh - 1 := by omega
        subst ha'
        refine ⟨by omega, ?_⟩
        cases exclusive
        · simp only [Bool.false_eq_true, if_false] at hb' ⊢
          have : b * dw ≤ kw / 2 * dw := Nat.mul_le_mul_right _ (by omega)
          omega
        · simp only [if_true, Nat.add_zero] at hb' ⊢
          have : (b + 1) * dw ≤ kw / 2 * dw := Nat.mul_le_mul_right _ (by omega)
          rw [Nat.add_mul, Nat.one_mul] at this
          omega
      · left
        have : (a + 1) * dh ≤ (kh - 1) * dh := Nat.mul_le_mul_right _ (by omega)
        rw [Nat.add_mul, Nat.one_mul] at this
        omega
    · rw [if_neg h, if_neg h]

/-- The 2d convolution keeps the width. -/
theorem C52_conv2d_width (W kw dw : Nat) (hkw : 0 < kw) : convLen (conv2dPadW W kw dw) kw dw = W := by
  simp only [convLen, conv2dPadW]
  have h : kw / 2 + (kw - 1) / 2 = kw - 1 := by omega
  have : (kw - 1) * dw = kw / 2 * dw + (kw - 1) / 2 * dw := by rw [← Nat.add_mul, h]
  omega

/-- layers after the first, with matching numbers of features. -/
def ChainOK (size : Nat) : Nat → List (((Nat → Nat → R) → Nat → Nat → R) × Nat) → Prop
  | _, [] => True
  | F, (l, F') :: rest => Causal false size F F' l ∧ ChainOK size F' rest

/-- number of output features of the stack. -/
def lastF : Nat → List (((Nat → Nat → R) → Nat → Nat → R) × Nat) → Nat
  | F, [] => F
  | _, (_, F') :: rest => lastF F' rest

theorem fold_causal (act : R → R) (size inF : Nat)
    (rest : List (((Nat → Nat → R) → Nat → Nat → R) × Nat)) (F : Nat)
    (l : (Nat → Nat → R) → Nat → Nat → R) (hl : Causal true size inF F l)
    (hr : ChainOK size F rest) :
    Causal true size inF (lastF F rest)
      (fun x => (rest.map (·.1)).foldl (fun y l => l fun t f => act (y t f)) (l x)) := by
  induction rest generalizing F l with
  | nil => exact hl
  | cons p rest ih =>
    obtain ⟨l', F'⟩ := p
    simp only [List.map_cons, List.foldl_cons, lastF]
    refine ih F' (fun x => l' fun t f => act (l x t f)) ?_ hr.2
    intro x x' t ht hx f hf
    refine hr.1 _ _ t ht (fun s hs g hg => ?_) f hf
    simp only [Bool.false_eq_true, if_false] at hs
    congr 1
    refine hl x x' s (by omega) (fun s' hs' g' hg' => ?_) g hg
    simp only [if_true] at hs' hx
    exact hx s' (by omega) g' hg'

/-- A stack whose first layer is exclusive and whose other layers are not (as in ARNNDense and
    ARNNConv1D), with any activation, has output site `t` depending only on input sites before `t`. -/
theorem C52_stack (act : R → R) (size inF F : Nat) (first : (Nat → Nat → R) → Nat → Nat → R)
    (rest : List (((Nat → Nat → R) → Nat → Nat → R) × Nat))
    (hf : Causal true size inF F first) (hr : ChainOK size F rest) :
    Causal true size inF (lastF F rest) (stack act (first :: rest.map (·.1))) :=
  fold_causal act size inF rest F first hf hr

/-- the non-exclusive dense layers, each with its number of features, as set up by `ARNNDense`
    (netket/models/autoreg.py:93-104). -/
def denseRest (size : Nat) : Nat → List (Nat × (Nat → Nat → R) × (Nat → Nat → R)) →
    List (((Nat → Nat → R) → Nat → Nat → R) × Nat)
  | _, [] => []
  | F, (F', k, b) :: rest => (maskedDense false size F F' k b, F') :: denseRest size F' rest

theorem denseRest_ok (size : Nat) : ∀ (rest : List (Nat × (Nat → Nat → R) × (Nat → Nat → R))) (F : Nat),
    ChainOK size F (denseRest size F rest)
  | [], _ => trivial
  | (F', k, b) :: rest, F => ⟨C52_dense false size F F' k b, denseRest_ok size rest F'⟩

/-- ARNNDense with any features, kernels, biases and activation is autoregressive. -/
theorem C52_arnn_dense (act : R → R) (size inF F : Nat) (k0 b0 : Nat → Nat → R)
    (rest : List (Nat × (Nat → Nat → R) × (Nat → Nat → R))) :
    Causal true size inF (lastF F (denseRest size F rest))
      (stack act (maskedDense true size inF F k0 b0 :: (denseRest size F rest).map (·.1))) :=
  C52_stack act size inF F _ _ (C52_dense true size inF F k0 b0) (denseRest_ok size rest F)

end

/-- the causal layers are not constant: site 1 of an exclusive dense layer does depend on site 0. -/
example : maskedDense (R := Int) true 2 1 1 (fun _ _ => 1) (fun _ _ => 0)
    (fun s _ => if s = 0 then 5 else 7) 1 0 = 5 := by decide
example : maskedConv1d (R := Int) true 4 2 1 1 1 1 (fun _ _ _ => 1) (fun _ => 0)
    (fun s _ => (s : Int) + 1) 3 0 = 5 := by decide
example : maskedConv2d (R := Int) true 2 3 2 3 1 1 1 1 1 (fun _ _ _ _ => 1) (fun _ => 0)
    (fun p q _ => (10 * p + q : Int)) 1 1 0 = 13 := by decide
/-- a two-layer network meets the hypotheses of the stack theorem and its output is not constant. -/
example : ChainOK (R := Int) 3 2 (denseRest 3 2 [(1, fun _ _ => 1, fun _ _ => 0)]) :=
  denseRest_ok 3 _ 2
example : stack (R := Int) id (maskedDense true 3 1 2 (fun _ _ => 1) (fun _ _ => 0) ::
    (denseRest 3 2 [(1, fun _ _ => 1, fun _ _ => 0)]).map (·.1)) (fun s _ => (s : Int) + 1) 2 0 = 8 := by
  decide

end Verif.AutoReg
