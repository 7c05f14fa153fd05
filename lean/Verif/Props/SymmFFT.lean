import Verif.Model.SymmFFT
import Verif.Spec.Cells
import Verif.Props.EquivLinear
import Mathlib.Analysis.SpecialFunctions.Complex.Log
import Mathlib.Algebra.Field.GeomSum
import Mathlib.Tactic.FieldSimp
import Mathlib.Algebra.BigOperators.Field

/-! C84: the FFT layers compute the same as the matrix layers on a periodic lattice. -/

set_option linter.unusedSectionVars false
set_option linter.unusedVariables false

namespace Verif.Symm
open Verif.Hilbert (Err)
open Finset

/-! ## The convolution theorem -/

/-- one axis: a sum of roots of unity. -/
theorem axis_sum (L : Nat) (hL : 0 < L) (d : ℤ) :
    ∑ a ∈ range L, Complex.exp (2 * Real.pi * Complex.I * (a : ℂ) * (d : ℂ) / (L : ℂ)) = if (L : ℤ) ∣ d then (L : ℂ) else 0 := by
  have hL0 : (L : ℂ) ≠ 0 := by exact_mod_cast hL.ne'
  set z : ℂ := Complex.exp (2 * Real.pi * Complex.I * (d : ℂ) / (L : ℂ)) with hz
  have hpow : ∀ a : Nat, Complex.exp (2 * Real.pi * Complex.I * (a : ℂ) * (d : ℂ) / (L : ℂ)) = z ^ a := by
    intro a
    rw [hz, ← Complex.exp_nat_mul]
    congr 1
    ring
  rw [sum_congr rfl fun a _ => hpow a]
  have hzL : z ^ L = 1 := by
    rw [hz, ← Complex.exp_nat_mul, Complex.exp_eq_one_iff]
    exact ⟨d, by field_simp⟩
  by_cases hd : (L : ℤ) ∣ d
  · rw [if_pos hd]
    have h1 : z = 1 := by
      obtain ⟨q, rfl⟩ := hd
      rw [hz, Complex.exp_eq_one_iff]
      exact ⟨q, by push_cast; field_simp⟩
    rw [h1]
    simp
  · rw [if_neg hd]
    have h1 : z ≠ 1 := by
      intro h
      rw [hz, Complex.exp_eq_one_iff] at h
      obtain ⟨q, hq⟩ := h
      have hpi : (2 * (Real.pi : ℂ) * Complex.I) ≠ 0 := Complex.two_pi_I_ne_zero
      have : (d : ℂ) = (q : ℂ) * (L : ℂ) := by
        field_simp at hq
        have h3 : (2 * (Real.pi : ℂ) * Complex.I) * (d : ℂ) = (2 * (Real.pi : ℂ) * Complex.I) * ((q : ℂ) * (L : ℂ)) := by
          linear_combination (2 * (Real.pi : ℂ) * Complex.I) * hq
        exact mul_left_cancel₀ hpi h3
      exact hd ⟨q, by exact_mod_cast (by rw [this]; ring : (d : ℂ) = (L : ℂ) * (q : ℂ))⟩
    have := mul_geom_sum z L
    rw [hzL, sub_self] at this
    exact (mul_eq_zero.1 this).resolve_left (sub_ne_zero.2 h1)

theorem cellSub_lt (shape : List Nat) (t c : Nat) (hpos : ∀ L ∈ shape, 0 < L) : cellSub shape t c < shape.prod := by
  induction shape generalizing t c with
  | nil => simp [cellSub]
  | cons L Ls ih =>
    rw [cellSub, List.prod_cons]
    exact flat_lt (Nat.mod_lt _ (hpos L (by simp))) (ih _ _ fun M hM => hpos M (by simp [hM]))

theorem sub_iff (L t c u : Nat) (hc : c < L) (hu : u < L) : (L : ℤ) ∣ (t : ℤ) - c - u ↔ u = (t + (L - c)) % L := by
  have e : (((t + (L - c)) % L : Nat) : ℤ) = ((t : ℤ) - c) % L := by
    rw [Int.natCast_mod, Nat.cast_add, Nat.cast_sub hc.le]
    rw [show (t : ℤ) + ((L : ℤ) - c) = (t - c) + L by ring, Int.add_emod_right]
  constructor
  · intro h
    have h2 : ((t : ℤ) - c) % L = (u : ℤ) % L := Int.emod_eq_emod_iff_emod_sub_eq_zero.2 (Int.emod_eq_zero_of_dvd h)
    have : (u : ℤ) % L = u := Int.emod_eq_of_lt (by omega) (by omega)
    rw [← Int.natCast_inj, e, h2, this]
  · intro h
    have h2 : (u : ℤ) = ((t : ℤ) - c) % L := by rw [← e, ← h]
    rw [h2]
    exact Int.dvd_self_sub_emod

theorem phase_sum (shape : List Nat) (hpos : ∀ L ∈ shape, 0 < L) : ∀ t c u, c < shape.prod → u < shape.prod →
    ∑ k ∈ range (cells shape), phase (-1) shape k c * phase (-1) shape k u * phase 1 shape k t
      = if u = cellSub shape t c then ((cells shape : Nat) : ℂ) else 0 := by
  induction shape with
  | nil =>
    intro t c u hc hu
    simp at hc hu
    simp [cells, phase, cellSub, hu]
  | cons L Ls ih =>
    intro t c u hc hu
    have hP : 0 < Ls.prod := by
      rcases Nat.eq_zero_or_pos Ls.prod with h | h
      · rw [List.prod_cons, h] at hc; omega
      · exact h
    have hL : 0 < L := hpos L (by simp)
    have hL0 : (L : ℂ) ≠ 0 := by exact_mod_cast hL.ne'
    rw [List.prod_cons] at hc hu
    have hc0 : c / Ls.prod < L := Nat.div_lt_of_lt_mul (by rw [Nat.mul_comm]; exact hc)
    have hu0 : u / Ls.prod < L := Nat.div_lt_of_lt_mul (by rw [Nat.mul_comm]; exact hu)
    have ih' := ih (fun M hM => hpos M (by simp [hM])) (t % Ls.prod) (c % Ls.prod) (u % Ls.prod) (Nat.mod_lt _ hP) (Nat.mod_lt _ hP)
    have ax := axis_sum L hL ((t / Ls.prod : Nat) - (c / Ls.prod : Nat) - (u / Ls.prod : Nat) : ℤ)
    have hcells : cells (L :: Ls) = L * cells Ls := by simp [cells]
    have hcP : cells Ls = Ls.prod := rfl
    rw [hcells, sum_range_flat]
    have step : ∀ a ∈ range L, ∀ b ∈ range (cells Ls),
        phase (-1) (L :: Ls) (a * cells Ls + b) c * phase (-1) (L :: Ls) (a * cells Ls + b) u * phase 1 (L :: Ls) (a * cells Ls + b) t
        = Complex.exp (2 * Real.pi * Complex.I * (a : ℂ)
              * (((t / Ls.prod : Nat) - (c / Ls.prod : Nat) - (u / Ls.prod : Nat) : ℤ) : ℂ) / (L : ℂ))
          * (phase (-1) Ls b (c % Ls.prod) * phase (-1) Ls b (u % Ls.prod) * phase 1 Ls b (t % Ls.prod)) := by
      intro a _ b hb
      obtain ⟨d1, d2⟩ := divmod (cells Ls) a b (mem_range.1 hb)
      rw [hcP] at d1 d2
      simp only [phase, hcP, d1, d2]
      have : Complex.exp (2 * Real.pi * Complex.I * (a : ℂ)
              * (((t / Ls.prod : Nat) - (c / Ls.prod : Nat) - (u / Ls.prod : Nat) : ℤ) : ℂ) / (L : ℂ))
          = Complex.exp (-1 * (2 * Real.pi * Complex.I) * (a : ℂ) * ((c / Ls.prod : Nat) : ℂ) / (L : ℂ))
            * Complex.exp (-1 * (2 * Real.pi * Complex.I) * (a : ℂ) * ((u / Ls.prod : Nat) : ℂ) / (L : ℂ))
            * Complex.exp (1 * (2 * Real.pi * Complex.I) * (a : ℂ) * ((t / Ls.prod : Nat) : ℂ) / (L : ℂ)) := by
        rw [← Complex.exp_add, ← Complex.exp_add]
        congr 1
        generalize t / Ls.prod = A
        generalize c / Ls.prod = B
        generalize u / Ls.prod = C
        push_cast
        ring
      rw [this]
      ring
    rw [sum_congr rfl fun a ha => sum_congr rfl fun b hb => step a ha b hb]
    simp only [← mul_sum, ← sum_mul]
    rw [ih', ax]
    have hiff : u = cellSub (L :: Ls) t c ↔ ((L : ℤ) ∣ ((t / Ls.prod : Nat) - (c / Ls.prod : Nat) - (u / Ls.prod : Nat) : ℤ))
        ∧ u % Ls.prod = cellSub Ls (t % Ls.prod) (c % Ls.prod) := by
      rw [sub_iff L _ _ _ hc0 hu0, cellSub]
      have hlt := cellSub_lt Ls (t % Ls.prod) (c % Ls.prod) fun M hM => hpos M (by simp [hM])
      constructor
      · intro h
        obtain ⟨d1, d2⟩ := divmod Ls.prod ((t / Ls.prod + (L - c / Ls.prod)) % L) _ hlt
        rw [h]
        exact ⟨d1, d2⟩
      · rintro ⟨h1, h2⟩
        rw [← h1, ← h2]
        exact (Nat.div_add_mod' u Ls.prod).symm
    by_cases h1 : (L : ℤ) ∣ ((t / Ls.prod : Nat) - (c / Ls.prod : Nat) - (u / Ls.prod : Nat) : ℤ)
    · by_cases h2 : u % Ls.prod = cellSub Ls (t % Ls.prod) (c % Ls.prod)
      · rw [if_pos h1, if_pos h2, if_pos (hiff.2 ⟨h1, h2⟩)]
        push_cast
        ring
      · rw [if_neg h2, if_neg fun h => h2 (hiff.1 h).2, mul_zero]
    · rw [if_neg h1, if_neg fun h => h1 (hiff.1 h).1, zero_mul]

/-- the inverse transform of a product of transforms is the periodic convolution. -/
theorem conv_theorem (shape : List Nat) (hpos : ∀ L ∈ shape, 0 < L) (x w : Nat → ℂ) (t : Nat) :
    ifftn shape (fun k => fftn shape x k * fftn shape w k) t = ∑ c ∈ range (cells shape), x c * w (cellSub shape t c) := by
  have hN : (cells shape : ℂ) ≠ 0 := by
    have : cells shape ≠ 0 := by
      unfold cells
      rw [Ne, List.prod_eq_zero_iff]
      intro h
      exact absurd (hpos 0 h) (by omega)
    exact_mod_cast this
  unfold ifftn fftn
  rw [div_eq_iff hN, sum_mul]
  have e : ∀ k ∈ range (cells shape), (∑ c ∈ range (cells shape), x c * phase (-1) shape k c)
      * (∑ u ∈ range (cells shape), w u * phase (-1) shape k u) * phase 1 shape k t
      = ∑ c ∈ range (cells shape), ∑ u ∈ range (cells shape), x c * w u
          * (phase (-1) shape k c * phase (-1) shape k u * phase 1 shape k t) := by
    intro k _
    rw [sum_mul_sum, sum_mul]
    refine sum_congr rfl fun c _ => ?_
    rw [sum_mul]
    exact sum_congr rfl fun u _ => by ring
  rw [sum_congr rfl e, sum_comm]
  refine sum_congr rfl fun c hc => ?_
  rw [sum_comm]
  have e2 : ∀ u ∈ range (cells shape), ∑ k ∈ range (cells shape), x c * w u
        * (phase (-1) shape k c * phase (-1) shape k u * phase 1 shape k t)
      = if u = cellSub shape t c then x c * w (cellSub shape t c) * (cells shape : ℂ) else 0 := by
    intro u hu
    rw [← mul_sum, phase_sum shape hpos t c u (mem_range.1 hc) (mem_range.1 hu)]
    by_cases h : u = cellSub shape t c
    · rw [if_pos h, if_pos h, h]
    · rw [if_neg h, if_neg h, mul_zero]
  rw [sum_congr rfl e2, sum_ite_eq' _ (cellSub shape t c), if_pos (show cellSub shape t c ∈ range (cells shape) from mem_range.2 (cellSub_lt shape t c hpos))]

theorem ifftn_sum (shape : List Nat) (s : Finset Nat) (F : Nat → Nat → ℂ) (t : Nat) :
    ifftn shape (fun k => ∑ i ∈ s, F i k) t = ∑ i ∈ s, ifftn shape (F i) t := by
  unfold ifftn
  rw [← sum_div]
  congr 1
  rw [sum_comm]
  exact sum_congr rfl fun k _ => by rw [sum_mul]

/-! ## The layers -/

/-- C84: what DenseSymmFFT computes: a translational convolution over the cells. -/
theorem C84_symm_formula (shape : List Nat) (hpos : ∀ L ∈ shape, 0 < L) (m spc : Nat) (sg : Nat → Nat → Nat) (bias : Option (Nat → ℂ))
    (w : Nat → Nat → ℂ) (x : Nat → ℂ) (f t p : Nat) (hp : p < m) :
    denseSymmFFT shape m spc sg bias w x f (t * m + p)
      = addBias bias f (∑ s ∈ range spc, ∑ c ∈ range (cells shape), x (c * spc + s) * w f (sg (cellSub shape t c * m + p) s)) := by
  obtain ⟨h1, h2⟩ := divmod m t p hp
  unfold denseSymmFFT
  rw [h1, h2, ifftn_sum]
  congr 1
  exact sum_congr rfl fun s _ => conv_theorem shape hpos _ _ t

/-- the first `m` columns-blocks of a space group on a periodic lattice: row (cell t, symmetry p) reads site (c, s) where row (t - c, p)
    reads site (0, s): translations come first and shift cells. -/
def TranslationRows (shape : List Nat) (m spc : Nat) (sg : Nat → Nat → Nat) : Prop :=
  ∀ t < shape.prod, ∀ c < shape.prod, ∀ p < m, ∀ s < spc, sg (t * m + p) (c * spc + s) = sg (cellSub shape t c * m + p) s

/-- C84: on a periodic lattice DenseSymmFFT and DenseSymmMatrix agree (their kernels are stored as (features, sites) and (sites, features)). -/
theorem C84_symm_agree (shape : List Nat) (hpos : ∀ L ∈ shape, 0 < L) (m spc F : Nat) (sg : Nat → Nat → Nat)
    (hsg : TranslationRows shape m spc sg) (bias : Option (Nat → ℂ)) (w : Nat → Nat → ℂ) (x : Nat → ℂ) (f : Nat) (hf : f < F) (q : Nat)
    (hq : q < shape.prod * m) :
    denseSymmFFT shape m spc sg bias w x f q = denseSymm (shape.prod * spc) (shape.prod * m) F sg none bias (fun k l => w l k) x f q := by
  have hm : 0 < m := by
    rcases Nat.eq_zero_or_pos m with h | h
    · rw [h] at hq; omega
    · exact h
  have hq' := Nat.div_add_mod' q m
  have ht : q / m < shape.prod := Nat.div_lt_of_lt_mul (by rw [Nat.mul_comm]; exact hq)
  have hp : q % m < m := Nat.mod_lt _ hm
  conv_lhs => rw [← hq']
  rw [C84_symm_formula shape hpos m spc sg bias w x f _ _ hp, denseSymm_eq _ _ F sg none bias _ x f q hf hq]
  congr 1
  rw [sum_range_flat, sum_comm]
  refine sum_congr rfl fun c hc => sum_congr rfl fun s hs => ?_
  simp only [maskKernel]
  rw [← hsg _ ht c (mem_range.1 hc) _ hp s (mem_range.1 hs), hq']

/-- C84: what DenseEquivariantFFT computes. -/
theorem C84_equiv_formula (shape : List Nat) (hpos : ∀ L ∈ shape, 0 < L) (inF m : Nat) (pt : Nat → Nat → Nat) (bias : Option (Nat → ℂ))
    (w : Nat → Nat → Nat → ℂ) (x : FMap ℂ) (o t r : Nat) (hr : r < m) :
    denseEquivFFT shape inF m pt bias w x o (t * m + r)
      = addBias bias o (∑ i ∈ range inF, ∑ p ∈ range m, ∑ c ∈ range (cells shape),
          x i (c * m + p) * w o i (pt p (cellSub shape t c * m + r))) := by
  obtain ⟨h1, h2⟩ := divmod m t r hr
  unfold denseEquivFFT
  rw [h1, h2, ifftn_sum]
  congr 1
  refine sum_congr rfl fun i _ => ?_
  rw [ifftn_sum]
  exact sum_congr rfl fun p _ => conv_theorem shape hpos _ _ t

/-- the table of a space group whose elements are (translation, symmetry): shifting both arguments by a translation changes nothing. -/
def TranslationTable (shape : List Nat) (m : Nat) (pt : Nat → Nat → Nat) : Prop :=
  ∀ t < shape.prod, ∀ c < shape.prod, ∀ p < m, ∀ r < m, pt (c * m + p) (t * m + r) = pt p (cellSub shape t c * m + r)

/-- C84: DenseEquivariantFFT computes the documented group convolution. -/
theorem C84_equiv_conv (shape : List Nat) (hpos : ∀ L ∈ shape, 0 < L) (inF m : Nat) (pt : Nat → Nat → Nat)
    (hT : TranslationTable shape m pt) (bias : Option (Nat → ℂ)) (w : Nat → Nat → Nat → ℂ) (x : FMap ℂ) (o q : Nat)
    (hq : q < shape.prod * m) :
    denseEquivFFT shape inF m pt bias w x o q
      = addBias bias o (∑ i ∈ range inF, ∑ g ∈ range (shape.prod * m), x i g * w o i (pt g q)) := by
  have hm : 0 < m := by
    rcases Nat.eq_zero_or_pos m with h | h
    · rw [h] at hq; omega
    · exact h
  have hq' := Nat.div_add_mod' q m
  have ht : q / m < shape.prod := Nat.div_lt_of_lt_mul (by rw [Nat.mul_comm]; exact hq)
  have hp : q % m < m := Nat.mod_lt _ hm
  conv_lhs => rw [← hq']
  rw [C84_equiv_formula shape hpos inF m pt bias w x o _ _ hp]
  congr 1
  refine sum_congr rfl fun i _ => ?_
  rw [sum_range_flat, sum_comm]
  refine sum_congr rfl fun c hc => sum_congr rfl fun p hp' => ?_
  rw [← hT _ ht c (mem_range.1 hc) p (mem_range.1 hp') _ hp, hq']

/-- C84: so it agrees with DenseEquivariantMatrix entry by entry. -/
theorem C84_equiv_agree (shape : List Nat) (hpos : ∀ L ∈ shape, 0 < L) (inF m : Nat) (pt : Nat → Nat → Nat)
    (hT : TranslationTable shape m pt) (hpt : ∀ g < shape.prod * m, ∀ l < shape.prod * m, pt g l < shape.prod * m)
    (bias : Option (Nat → ℂ)) (w : Nat → Nat → Nat → ℂ) (x : FMap ℂ) (o q : Nat) (hq : q < shape.prod * m) :
    denseEquivFFT shape inF m pt bias w x o q
      = denseEquivMatrix inF (shape.prod * m) pt none bias w x (o * (shape.prod * m) + q) := by
  rw [C84_equiv_conv shape hpos inF m pt hT bias w x o q hq, C62_matrix_formula inF _ pt none bias w x o q hq hpt]
  rfl

/-- the table of a group array with translation rows is a translation table. -/
theorem translationTable_of_rows (shape : List Nat) (hpos : ∀ L ∈ shape, 0 < L) (m spc : Nat) (sg pt : Nat → Nat → Nat)
    (G : IsPermGroup (shape.prod * spc) (shape.prod * m) sg) (P : IsProductTable (shape.prod * spc) (shape.prod * m) sg pt)
    (shift : Nat → Nat → Nat) (hshift : ∀ c < shape.prod, ∀ i < shape.prod * spc, shift c i < shape.prod * spc)
    (hsg : ∀ t < shape.prod, ∀ c < shape.prod, ∀ p < m, ∀ i < shape.prod * spc,
      sg (t * m + p) i = sg (cellSub shape t c * m + p) (shift c i)) (hz : ∀ t < shape.prod, cellSub shape t t = 0) :
    TranslationTable shape m pt := by
  have hlt : ∀ t < shape.prod, ∀ p < m, t * m + p < shape.prod * m := fun t ht p hp => flat_lt ht hp
  intro t ht c hc p hp r hr
  have hN : 0 < shape.prod := by omega
  have h0 : ∀ p < m, p < shape.prod * m := fun p hp => by simpa using hlt 0 hN p hp
  have hu := cellSub_lt shape t c hpos
  have a := P (c * m + p) (hlt c hc p hp) (t * m + r) (hlt t ht r hr)
  have b := P p (h0 p hp) (cellSub shape t c * m + r) (hlt _ hu r hr)
  refine G.nodup _ a.1 _ b.1 fun j hj => ?_
  obtain ⟨i, hi, rfl⟩ := range_surj (G.lt _ (hlt c hc p hp)) (G.inj _ (hlt c hc p hp)) j hj
  have e1 : sg (c * m + p) i = sg p (shift c i) := by
    have := hsg c hc c hc p hp i hi
    rwa [hz c hc, Nat.zero_mul, Nat.zero_add] at this
  rw [a.2 i hi, e1, b.2 _ (hshift c hc i hi), hsg t ht c hc r hr i hi]

/-- C84: DenseEquivariantFFT commutes with the symmetries of the space group. -/
theorem C84_equivariant (n : Nat) (shape : List Nat) (hpos : ∀ L ∈ shape, 0 < L) (m : Nat) (sg pt : Nat → Nat → Nat)
    (G : IsPermGroup n (shape.prod * m) sg) (P : IsProductTable n (shape.prod * m) sg pt) (hT : TranslationTable shape m pt)
    (inF outF : Nat) (bias : Option (Nat → ℂ)) (w : Nat → Nat → Nat → ℂ) :
    Equivariant n (shape.prod * m) sg inF outF (denseEquivFFT shape inF m pt bias w) := by
  intro h hh s T x' x R o ho k hk
  have := conv_equivariant n _ sg pt G P inF outF bias w h hh s T x' x R o ho k hk
  simp only [conv] at this
  rw [C84_equiv_conv shape hpos inF m pt hT bias w x' o (s k) (T.1.1 k hk), C84_equiv_conv shape hpos inF m pt hT bias w x o k hk]
  exact this

/-! ## A concrete case: the translations of a ring of three sites -/

/-- translation by `g` sites. -/
def exSg (g i : Nat) : Nat := (i + 3 - g) % 3

theorem exRows : TranslationRows [3] 1 1 exSg := by unfold TranslationRows; decide

theorem exTable : TranslationTable [3] 1 (fun g k => exSg g k) := by unfold TranslationTable; decide

theorem exGroup : IsPermGroup 3 ([3].prod * 1) exSg := ⟨by decide, by decide, by decide, by decide⟩

theorem exProd : IsProductTable 3 ([3].prod * 1) exSg exSg := by unfold IsProductTable; decide

example := C84_symm_formula [3] (by decide) 1 1 exSg (some fun f => f) (fun f l => f + l) (fun s => s) 1 2 0 (by decide)

example := C84_symm_agree [3] (by decide) 1 1 2 exSg exRows (some fun f => f) (fun f l => f + l) (fun s => s) 1 (by decide) 2 (by decide)

example := C84_equiv_formula [3] (by decide) 2 1 exSg (some fun f => f) (fun o i l => o + i * l) (fun i s => i + s) 1 2 0 (by decide)

example := C84_equiv_conv [3] (by decide) 2 1 exSg exTable (some fun f => f) (fun o i l => o + i * l) (fun i s => i + s) 1 2 (by decide)

example := C84_equiv_agree [3] (by decide) 2 1 exSg exTable (by decide) (some fun f => f) (fun o i l => o + i * l) (fun i s => i + s) 1 2 (by decide)

example := C84_equivariant 3 [3] (by decide) 1 exSg exSg exGroup exProd exTable 2 2 (some fun f => f) (fun o i l => o + i * l)

end Verif.Symm
