import Verif.Props.IrrepMatrices
import Verif.Props.EquivLinear
import Verif.Lemmas.Completeness

/-! C152: the matrices of all irreducible representations are what the irrep layers (C62) need. -/

namespace Verif.CharTab
open Verif.Grp Verif.Irrep Finset
open Verif.Hilbert (Err)

variable {G : Type} [Group G] [Fintype G] {elems : List G} {T : List (List Nat)} {inv : List Nat}

theorem list_sum_ite [DecidableEq (G → ℂ)] (chars : List (G → ℂ)) (hnd : chars.Nodup) (ψ : G → ℂ) (hψ : ψ ∈ chars) (f : (G → ℂ) → ℂ) :
    (chars.map fun χ => if χ = ψ then f χ else 0).sum = f ψ := by
  induction chars with
  | nil => cases hψ
  | cons a l ih =>
    rw [List.map_cons, List.sum_cons]
    rw [List.nodup_cons] at hnd
    by_cases h : a = ψ
    · subst h
      have h0 : (l.map fun χ => if χ = a then f χ else 0).sum = 0 := by
        apply List.sum_eq_zero
        intro x hx
        obtain ⟨χ, hχ, rfl⟩ := List.mem_map.1 hx
        have : ¬χ = a := fun e => hnd.1 (e ▸ hχ)
        rw [if_neg this]
      rw [if_pos rfl, h0, add_zero]
    · rw [if_neg h, zero_add]
      rcases List.mem_cons.1 hψ with e | hm
      · exact absurd e.symm h
      · exact ih hnd.2 hm

theorem list_sum_comm (chars : List (G → ℂ)) (F : (G → ℂ) → G → ℂ) :
    ∑ g, (chars.map fun χ => F χ g).sum = (chars.map fun χ => ∑ g, F χ g).sum := by
  induction chars with
  | nil => simp
  | cons a l ih => simp only [List.map_cons, List.sum_cons, sum_add_distrib, ih]

theorem list_sum_mul (chars : List (G → ℂ)) (F : (G → ℂ) → ℂ) (c : ℂ) : (chars.map F).sum * c = (chars.map fun χ => F χ * c).sum := by
  induction chars with
  | nil => simp
  | cons a l ih => simp only [List.map_cons, List.sum_cons, add_mul, ih]

/-- the character of the regular representation. -/
theorem regular [DecidableEq G] (chars : List (G → ℂ)) (hnd : chars.Nodup) (hch : ∀ χ, χ ∈ chars ↔ IsIrrChar χ) (g : G) :
    (chars.map fun χ => χ 1 * χ g).sum = if g = 1 then (Fintype.card G : ℂ) else 0 := by
  classical
  let F : G → ℂ := fun g => (chars.map fun χ => χ 1 * χ g).sum - if g = 1 then (Fintype.card G : ℂ) else 0
  have hF : IsClassFn F := by
    intro h x
    have e1 : (chars.map fun χ => χ 1 * χ (h * x * h⁻¹)) = chars.map fun χ => χ 1 * χ x :=
      List.map_congr_left fun χ hχ => by rw [irr_classFn ((hch χ).1 hχ) h x]
    have e2 : (h * x * h⁻¹ = 1) ↔ x = 1 := by
      constructor
      · intro e
        have : h * x = h := by rw [← mul_inv_eq_one]; exact e
        simpa using this
      · rintro rfl; simp
    show (chars.map fun χ => χ 1 * χ (h * x * h⁻¹)).sum - _ = _
    rw [e1]
    simp only [e2]
    rfl
  have h0 : F = 0 := by
    by_contra hne
    obtain ⟨ψ, hψ, hs⟩ := exists_irr F hF hne
    apply hs
    obtain ⟨d, hd, hd1, hn, -⟩ := hψ.facts
    have e : ∀ l, F l * (starRingEnd ℂ) (ψ l) = (chars.map fun χ => χ 1 * (χ l * (starRingEnd ℂ) (ψ l))).sum
        - if l = 1 then (Fintype.card G : ℂ) * (starRingEnd ℂ) (ψ l) else 0 := by
      intro l
      show ((chars.map fun χ => χ 1 * χ l).sum - if l = 1 then (Fintype.card G : ℂ) else 0) * _ = _
      rw [sub_mul, list_sum_mul, ite_mul, zero_mul]
      simp only [mul_assoc]
    simp only [e, sum_sub_distrib]
    rw [sum_ite_eq' univ (1 : G), if_pos (mem_univ _), list_sum_comm]
    have e3 : (chars.map fun χ => ∑ l, χ 1 * (χ l * (starRingEnd ℂ) (ψ l))) = chars.map fun χ => if χ = ψ then χ 1 * (Fintype.card G : ℂ) else 0 := by
      refine List.map_congr_left fun χ hχ => ?_
      rw [← mul_sum]
      by_cases hc : χ = ψ
      · rw [if_pos hc, hc, hn]
      · rw [if_neg hc]
        have := ((hch χ).1 hχ).orthogonal hψ hc
        rw [show ∑ l, χ l * (starRingEnd ℂ) (ψ l) = 0 by rw [← this]; exact sum_congr rfl fun _ _ => mul_comm _ _, mul_zero]
    rw [e3, list_sum_ite chars hnd ψ ((hch ψ).2 hψ) fun χ => χ 1 * (Fintype.card G : ℂ), hd1, Complex.conj_natCast]
    ring
  have := congrFun h0 g
  exact sub_eq_zero.1 this

theorem get_idx (hT : IsTable elems T) (p : Nat) (hp : p < T.length) : ∃ g, elems[p]? = some g := by
  rw [hT.length] at hp
  exact ⟨elems[p], List.getElem?_eq_getElem hp⟩

theorem idx_inj (hT : IsTable elems T) (p q : Nat) (g : G) (hp : elems[p]? = some g) (hq : elems[q]? = some g) : p = q := by
  obtain ⟨h1, e1⟩ := List.getElem?_eq_some_iff.1 hp
  obtain ⟨h2, e2⟩ := List.getElem?_eq_some_iff.1 hq
  exact (List.Nodup.getElem_inj_iff hT.nodup).1 (e1.trans e2.symm)

theorem get_table (hT : IsTable elems T) (p q : Nat) (g h : G) (hp : elems[p]? = some g) (hq : elems[q]? = some h) :
    elems[Grp.entry T p q]? = some (g⁻¹ * h) := by
  obtain ⟨row, k, h1, h2, h3⟩ := hT.get p q g h hp hq
  have : Grp.entry T p q = k := by
    unfold Grp.entry
    rw [show T.getD p [] = row by rw [List.getD_eq_getElem?_getD, h1]; rfl, List.getD_eq_getElem?_getD, h2]
    rfl
  rw [this, h3]

/-- a unitary representation has D(g⁻¹) = D(g)†. -/
theorem rep_star {D : Irrep} (hD : IsUnitaryRep elems D) (h1 : ∃ p0 : Nat, elems[p0]? = some (1 : G)) (p q : Nat) (g : G) (hp : elems[p]? = some g)
    (hq : elems[q]? = some g⁻¹) (i j : Nat) (hi : i < D.dim) (hj : j < D.dim) : (starRingEnd ℂ) (D.mat p i j) = D.mat q j i := by
  obtain ⟨p0, hp0⟩ := h1
  let A : Matrix (Fin D.dim) (Fin D.dim) ℂ := fun a b => D.mat p a b
  let B : Matrix (Fin D.dim) (Fin D.dim) ℂ := fun a b => D.mat q a b
  have hAA : A.conjTranspose * A = 1 := by
    ext a b
    rw [Matrix.mul_apply, Matrix.one_apply]
    have := hD.unitary p g hp a a.2 b b.2
    rw [Finset.sum_range] at this
    simp only [Fin.ext_iff]
    exact this
  have hBA : B * A = 1 := by
    ext a b
    rw [Matrix.mul_apply, Matrix.one_apply]
    have h := hD.mul q p p0 g⁻¹ g hq hp (by rw [inv_mul_cancel]; exact hp0) a a.2 b b.2
    rw [hD.one p0 hp0 a a.2 b b.2, Finset.sum_range] at h
    simp only [Fin.ext_iff]
    exact h
  have hA : A * A.conjTranspose = 1 := mul_eq_one_comm.1 hAA
  have hB : B = A.conjTranspose := by
    calc B = B * (A * A.conjTranspose) := by rw [hA, Matrix.mul_one]
      _ = A.conjTranspose := by rw [← Matrix.mul_assoc, hBA, Matrix.one_mul]
  have := congrFun (congrFun hB ⟨j, hj⟩) ⟨i, hi⟩
  exact this.symm

/-- the matrices as the layers take them (symmetric_linear.py:395-409). -/
def asLayer (D : Irrep) : Symm.Irrep ℂ := ⟨D.dim, D.mat⟩

omit [Group G] [Fintype G] in
theorem zip_sum (chars : List (G → ℂ)) (Ds : List Irrep) (hlen : Ds.length = chars.length) (f : Irrep → ℂ) (F : (G → ℂ) → ℂ)
    (h : ∀ (k : Nat) D χ, Ds[k]? = some D → chars[k]? = some χ → f D = F χ) : (Ds.map f).sum = (chars.map F).sum := by
  congr 1
  apply List.ext_getElem?
  intro k
  rw [List.getElem?_map, List.getElem?_map]
  rcases Nat.lt_or_ge k chars.length with hk | hk
  · have hk' : k < Ds.length := by omega
    rw [List.getElem?_eq_getElem hk, List.getElem?_eq_getElem hk', Option.map_some, Option.map_some,
      h k _ _ (List.getElem?_eq_getElem hk') (List.getElem?_eq_getElem hk)]
  · rw [List.getElem?_eq_none hk, List.getElem?_eq_none (by omega)]
    rfl

/-- **C152.** if the character table lists every irreducible character once and each returned representation has its character's dimension,
    the returned matrices satisfy the two relations the irrep layers rely on: D(g) D(g⁻¹k) = D(k), and completeness,
    Σ_D dim D / |G| Σ_ab D(k)_ab D(g)*_ab = δ_kg. -/
theorem C152_complete (hT : IsTable elems T) (hall : ∀ g, g ∈ elems) (hinv : IsInv elems inv) (real cplx : Eigen) (e e' : Nat → ℂ)
    (hr : IsEigh T.length (invariantMatrix T inv e) real.ev real.v) (hc : IsEigh T.length (invariantMatrix T inv e') cplx.ev cplx.v)
    (chars : List (G → ℂ)) (hnd : chars.Nodup) (hchars : ∀ χ, χ ∈ chars ↔ IsIrrChar χ) (Ds : List Irrep)
    (h : irrepMatrices T inv real cplx (chars.map fun χ => elems.map χ) = .ok Ds)
    (hdim : ∀ (k : Nat) D χ, Ds[k]? = some D → chars[k]? = some χ → (D.dim : ℂ) = χ 1) :
    Symm.IsCompleteIrreps T.length (Grp.entry T) (Ds.map asLayer) := by
  classical
  obtain ⟨hlen, hrep⟩ := C152_unitary hT hall hinv real cplx e e' hr hc _ Ds h
  rw [List.length_map] at hlen
  have hchar := fun k χ hk D hD => C152_characters hT hall hinv real cplx e e' hr hc chars (fun χ hχ => (hchars χ).1 hχ) Ds h k χ hk D hD
  have hone : ∃ p0 : Nat, elems[p0]? = some (1 : G) := List.getElem?_of_mem (hall 1)
  have hcard : (T.length : ℂ) = (Fintype.card G : ℂ) := by
    rw [hT.length, ← List.toFinset_card_of_nodup hT.nodup]
    congr 1
    rw [← Finset.card_univ]
    congr 1
    ext g
    simp [hall g]
  have hcard0 : (Fintype.card G : ℂ) ≠ 0 := Nat.cast_ne_zero.2 Fintype.card_ne_zero
  constructor
  · intro r hr' g hg k hk a ha b hb
    obtain ⟨D, hD, rfl⟩ := List.mem_map.1 hr'
    obtain ⟨x, hx⟩ := get_idx hT g hg
    obtain ⟨y, hy⟩ := get_idx hT k hk
    exact (hrep D hD).2.mul g (Grp.entry T g k) k x (x⁻¹ * y) hx (get_table hT g k x y hx hy) (by rw [mul_inv_cancel_left]; exact hy) a ha b hb
  · intro g hg k hk
    obtain ⟨x, hx⟩ := get_idx hT g hg
    obtain ⟨y, hy⟩ := get_idx hT k hk
    obtain ⟨q, hq⟩ := List.getElem?_of_mem (hall x⁻¹)
    obtain ⟨r, hr2⟩ := List.getElem?_of_mem (hall (y * x⁻¹))
    have hsum : ∀ (j : Nat) D χ, Ds[j]? = some D → chars[j]? = some χ →
        (∑ a ∈ range D.dim, ∑ b ∈ range D.dim, D.mat k a b * (star (D.mat g a b) * ((D.dim : ℂ) / (T.length : ℂ))))
          = χ 1 * χ (y * x⁻¹) / (Fintype.card G : ℂ) := by
      intro j D χ hD hχ
      have hU := (hrep D (List.mem_of_getElem? hD)).2
      have e1 : ∀ a ∈ range D.dim, ∑ b ∈ range D.dim, D.mat k a b * (star (D.mat g a b) * ((D.dim : ℂ) / (T.length : ℂ)))
          = D.mat r a a * ((D.dim : ℂ) / (T.length : ℂ)) := by
        intro a ha
        rw [← hU.mul k q r y x⁻¹ hy hq hr2 a (mem_range.1 ha) a (mem_range.1 ha), sum_mul]
        refine sum_congr rfl fun b hb => ?_
        have := rep_star hU hone g q x hx hq a b (mem_range.1 ha) (mem_range.1 hb)
        rw [← this, mul_assoc]
        rfl
      rw [sum_congr rfl e1, ← sum_mul, hchar j χ hχ D hD (hdim j D χ hD hχ) r _ hr2, hdim j D χ hD hχ, hcard]
      ring
    rw [List.map_map]
    show (Ds.map fun D => ∑ a ∈ range D.dim, ∑ b ∈ range D.dim, D.mat k a b * (star (D.mat g a b) * ((D.dim : ℂ) / (T.length : ℂ)))).sum = _
    rw [zip_sum chars Ds hlen _ _ hsum]
    have e2 : (chars.map fun χ => χ 1 * χ (y * x⁻¹) / (Fintype.card G : ℂ)) = chars.map fun χ => χ 1 * χ (y * x⁻¹) * (Fintype.card G : ℂ)⁻¹ := by
      simp only [div_eq_mul_inv]
    rw [e2, ← list_sum_mul, regular chars hnd hchars]
    by_cases hkg : k = g
    · subst hkg
      rw [hx] at hy
      cases hy
      rw [if_pos (mul_inv_cancel _), if_pos rfl, mul_inv_cancel₀ hcard0]
    · have hxy : ¬y * x⁻¹ = 1 := fun e => hkg (idx_inj hT k g y hy (by rw [mul_inv_eq_one.1 e]; exact hx))
      rw [if_neg hxy, if_neg hkg, zero_mul]

/-- the irreducible characters of the group with two elements. -/
theorem z2_chars (χ : Multiplicative (ZMod 2) → ℂ) : χ ∈ ([fun _ => 1, fun g => if g = 1 then 1 else -1] : List (Multiplicative (ZMod 2) → ℂ)) ↔ IsIrrChar χ := by
  have hs : IsIrrChar (fun g : Multiplicative (ZMod 2) => if g = 1 then (1 : ℂ) else -1) := by
    have hd : ∀ g h : Multiplicative (ZMod 2), (g * h = 1) ↔ ((g = 1) ↔ (h = 1)) := by decide
    refine irr_hom _ (by simp) ?_ ?_
    · intro g h
      simp only [hd]
      by_cases hg : g = 1 <;> by_cases hh : h = 1 <;> simp [hg, hh]
    · intro g
      split <;> simp
  constructor
  · intro h
    simp only [List.mem_cons, List.not_mem_nil, or_false] at h
    rcases h with rfl | rfl
    · exact irr_one
    · exact hs
  · intro h
    by_contra hn
    simp only [List.mem_cons, List.not_mem_nil, or_false, not_or] at hn
    have h1 := h.orthogonal irr_one hn.1
    have h2 := h.orthogonal hs hn.2
    obtain ⟨d, hd, hd1, -, -⟩ := h.facts
    have hu : (univ : Finset (Multiplicative (ZMod 2))) = {1, Multiplicative.ofAdd 1} := by decide
    have hne : (1 : Multiplicative (ZMod 2)) ∉ ({Multiplicative.ofAdd 1} : Finset (Multiplicative (ZMod 2))) := by decide
    have hne' : ¬(Multiplicative.ofAdd (1 : ZMod 2) = 1) := by decide
    rw [hu, sum_insert hne, sum_singleton] at h1 h2
    simp only [map_one, one_mul, if_true, if_neg hne', map_neg, neg_mul] at h1 h2
    have : χ 1 = 0 := by linear_combination (h1 + h2) / 2
    rw [hd1] at this
    exact absurd (Nat.cast_eq_zero.1 this) (by omega)

/-- The hypotheses of `C152_complete` hold for the group with two elements. -/
example : ∃ D D', irrepMatrices [[0, 1], [1, 0]] [0, 1] z2eig z2eig [[1, 1], [1, -1]] = .ok [D, D']
    ∧ Symm.IsCompleteIrreps 2 (Grp.entry [[0, 1], [1, 0]]) ([D, D'].map asLayer) := by
  obtain ⟨D, D', h, h1, h2⟩ := z2_matrices
  refine ⟨D, D', h, ?_⟩
  refine C152_complete (elems := [(1 : Multiplicative (ZMod 2)), Multiplicative.ofAdd 1]) (T := [[0, 1], [1, 0]]) (inv := [0, 1]) ?_ (by decide) ?_
    z2eig z2eig _ _ z2_eigh z2_eigh [fun _ => 1, fun g => if g = 1 then 1 else -1] ?_ z2_chars [D, D'] (by simpa using h) ?_
  · refine ⟨by decide, rfl, ?_⟩
    intro i j g k hi hj
    have hi' : i = 0 ∨ i = 1 := by have := (List.getElem?_eq_some_iff.1 hi).1; simp at this; omega
    have hj' : j = 0 ∨ j = 1 := by have := (List.getElem?_eq_some_iff.1 hj).1; simp at this; omega
    rcases hi' with rfl | rfl <;> rcases hj' with rfl | rfl <;> simp at hi hj <;> subst hi hj
    · exact ⟨_, _, rfl, rfl, rfl⟩
    · exact ⟨_, _, rfl, rfl, rfl⟩
    · exact ⟨_, _, rfl, rfl, rfl⟩
    · exact ⟨_, _, rfl, rfl, rfl⟩
  · intro i g hi
    have hi' : i = 0 ∨ i = 1 := by have := (List.getElem?_eq_some_iff.1 hi).1; simp at this; omega
    rcases hi' with rfl | rfl <;> simp at hi <;> subst hi
    · exact ⟨0, rfl, rfl⟩
    · exact ⟨1, rfl, rfl⟩
  · rw [List.nodup_cons]
    refine ⟨?_, by simp⟩
    intro hc
    rw [List.mem_singleton] at hc
    have := congrFun hc (Multiplicative.ofAdd 1)
    have hne' : ¬(Multiplicative.ofAdd (1 : ZMod 2) = 1) := by decide
    rw [if_neg hne'] at this
    norm_num at this
  · intro k D₀ χ hD hχ
    have hk : k = 0 ∨ k = 1 := by have := (List.getElem?_eq_some_iff.1 hD).1; simp at this; omega
    rcases hk with rfl | rfl <;> simp at hD hχ <;> subst hD hχ
    · simp [h1]
    · simp [h2]

end Verif.CharTab
