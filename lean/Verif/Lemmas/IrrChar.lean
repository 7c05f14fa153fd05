import Verif.Spec.Character
import Verif.Lemmas.CharLink

/-! Irreducible characters and the functional equation. -/

namespace Verif.Irrep
open Finset
variable {G : Type} [Group G] [Fintype G]

/-- dimension, normalisation and functional equation of an irreducible character. -/
theorem IsIrrChar.facts {χ : G → ℂ} (h : IsIrrChar χ) : ∃ d : Nat, 0 < d ∧ χ 1 = d ∧
    ∑ g, χ g * (starRingEnd ℂ) (χ g) = Fintype.card G ∧ Spherical fun g => χ g / d := by
  obtain ⟨V, i1, i2, i3, ρ, hρ, hχ⟩ := h
  have e : χ = ρ.character := funext hχ
  subst e
  refine ⟨Module.finrank ℂ V, ?_, Representation.char_one ρ, char_normSq ρ, spherical_of_irreducible ρ⟩
  have := finrank_ne ρ
  rcases Nat.eq_zero_or_pos (Module.finrank ℂ V) with h | h
  · rw [h] at this
    simp at this
  · exact h

/-- every solution comes from an irreducible character. -/
theorem Spherical.irrChar {φ : G → ℂ} (hφ : Spherical φ) : ∃ (d : Nat) (χ : G → ℂ), 0 < d ∧ IsIrrChar χ ∧ ∀ g, χ g = d * φ g := by
  obtain ⟨V, i1, i2, i3, ρ, hρ, hχ⟩ := hφ.isNormChar
  refine ⟨Module.finrank ℂ V, ρ.character, ?_, ⟨V, i1, i2, i3, ρ, hρ, fun _ => rfl⟩, hχ⟩
  have := finrank_ne ρ
  rcases Nat.eq_zero_or_pos (Module.finrank ℂ V) with h | h
  · rw [h] at this
    simp at this
  · exact h

/-- an irreducible character is determined up to a factor. -/
theorem IsIrrChar.eq_of_smul {χ ψ : G → ℂ} (hχ : IsIrrChar χ) (hψ : IsIrrChar ψ) (c : ℂ) (h : ∀ g, χ g = c * ψ g) : χ = ψ := by
  obtain ⟨d, hd, hd1, hd2, -⟩ := hχ.facts
  obtain ⟨e, he, he1, he2, -⟩ := hψ.facts
  have h1 := h 1
  rw [hd1, he1] at h1
  have h2 : c * (starRingEnd ℂ) c = 1 := by
    have h3 : ∑ g, χ g * (starRingEnd ℂ) (χ g) = c * (starRingEnd ℂ) c * ∑ g, ψ g * (starRingEnd ℂ) (ψ g) := by
      rw [mul_sum]
      refine sum_congr rfl fun g _ => ?_
      rw [h g, map_mul]
      ring
    rw [hd2, he2] at h3
    have hc := card_ne (G := G)
    have : (Fintype.card G : ℂ) * (c * (starRingEnd ℂ) c) = Fintype.card G * 1 := by rw [mul_one]; rw [mul_comm]; exact h3.symm
    exact mul_left_cancel₀ hc this
  have hc : c = ((d : ℝ) / e : ℝ) := by
    have : (e : ℂ) ≠ 0 := Nat.cast_ne_zero.2 (by omega)
    push_cast
    rw [eq_div_iff this]
    exact h1.symm
  have hd' : (0 : ℝ) < d := by exact_mod_cast hd
  have he' : (0 : ℝ) < e := by exact_mod_cast he
  have hc1 : c = 1 := by
    rw [hc] at h2 ⊢
    rw [Complex.conj_ofReal] at h2
    have h3 : ((d : ℝ) / e) * ((d : ℝ) / e) = 1 := by exact_mod_cast h2
    have h4 : (d : ℝ) / e = 1 := by
      have : 0 < (d : ℝ) / e := by positivity
      nlinarith
    rw [h4]
    norm_num
  funext g
  rw [h g, hc1, one_mul]

/-- different characters are orthogonal. -/
theorem IsIrrChar.orthogonal {χ ψ : G → ℂ} (hχ : IsIrrChar χ) (hψ : IsIrrChar ψ) (hne : χ ≠ ψ) :
    ∑ g, (starRingEnd ℂ) (ψ g) * χ g = 0 := by
  obtain ⟨d, hd, -, -, hd3⟩ := hχ.facts
  obtain ⟨e, he, -, -, he3⟩ := hψ.facts
  have hd' : (d : ℂ) ≠ 0 := Nat.cast_ne_zero.2 (by omega)
  have he' : (e : ℂ) ≠ 0 := Nat.cast_ne_zero.2 (by omega)
  have h := hd3.orthogonal he3 (by
    intro heq
    refine hne (hχ.eq_of_smul hψ (d / e) fun g => ?_)
    have := congrFun heq g
    field_simp at this ⊢
    linear_combination this)
  have h2 : ∑ g, (starRingEnd ℂ) (ψ g) * χ g = e * d * ∑ x, (starRingEnd ℂ) (ψ x / e) * (χ x / d) := by
    rw [mul_sum]
    refine sum_congr rfl fun g _ => ?_
    rw [map_div₀, map_natCast]
    field_simp
  rw [h2, h, mul_zero]

/-- different characters differ by at least one somewhere. -/
theorem IsIrrChar.separated {χ ψ : G → ℂ} (hχ : IsIrrChar χ) (hψ : IsIrrChar ψ) (hne : χ ≠ ψ) :
    ∃ g, 1 ≤ |(χ g).re - (ψ g).re| ∨ 1 ≤ |(χ g).im - (ψ g).im| := by
  by_contra hcon
  push Not at hcon
  obtain ⟨-, -, -, hd2, -⟩ := hχ.facts
  obtain ⟨-, -, -, he2, -⟩ := hψ.facts
  have h1 := hχ.orthogonal hψ hne
  have h2 := hψ.orthogonal hχ hne.symm
  have h3 : ∑ g, (χ g - ψ g) * (starRingEnd ℂ) (χ g - ψ g) = 2 * Fintype.card G := by
    have : ∀ g, (χ g - ψ g) * (starRingEnd ℂ) (χ g - ψ g) = χ g * (starRingEnd ℂ) (χ g) + ψ g * (starRingEnd ℂ) (ψ g)
        - (starRingEnd ℂ) (ψ g) * χ g - (starRingEnd ℂ) (χ g) * ψ g := by
      intro g
      rw [map_sub]
      ring
    rw [sum_congr rfl fun g _ => this g, sum_sub_distrib, sum_sub_distrib, sum_add_distrib, hd2, he2, h1, h2]
    ring
  have h4 : ∑ g, Complex.normSq (χ g - ψ g) = 2 * Fintype.card G := by
    have : ((∑ g, Complex.normSq (χ g - ψ g) : ℝ) : ℂ) = ((2 * Fintype.card G : ℝ) : ℂ) := by
      push_cast
      rw [← h3]
      exact sum_congr rfl fun g _ => (Complex.mul_conj _).symm
    exact_mod_cast this
  have h5 : ∑ g, Complex.normSq (χ g - ψ g) < ∑ _g : G, 2 := by
    refine sum_lt_sum_of_nonempty ⟨1, mem_univ _⟩ fun g _ => ?_
    obtain ⟨ha, hb⟩ := hcon g
    rw [Complex.normSq_apply, Complex.sub_re, Complex.sub_im]
    have h1 := abs_lt.1 ha
    have h2 := abs_lt.1 hb
    nlinarith [h1.1, h1.2, h2.1, h2.2]
  rw [h4, sum_const, card_univ, nsmul_eq_mul] at h5
  linarith

end Verif.Irrep
