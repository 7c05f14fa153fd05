import Verif.Props.PointGroupsCubic

/-! C135: operations on point groups, and the groups of the cuboid. -/

set_option linter.unusedSectionVars false

namespace Verif.PGrp
open Verif.Hilbert (Err)
open Matrix
variable {d : Nat}

/-- the element preserves orientation: it acts as `x ↦ W x + w` with `det W = 1`. -/
def Proper (e : PGElem ℝ d) : Prop := ∃ (W : Matrix (Fin d) (Fin d) ℝ) (w : Fin d → ℝ), (∀ x, e.act x = some (W *ᵥ x + w)) ∧ W.det = 1

theorem act_unique (W V : Matrix (Fin d) (Fin d) ℝ) (w v : Fin d → ℝ) (h : ∀ x, W *ᵥ x + w = V *ᵥ x + v) : W = V ∧ w = v := by
  have h0 : w = v := by simpa using h 0
  refine ⟨Matrix.ext_of_mulVec_single fun i => ?_, h0⟩
  have := h (Pi.single i 1)
  rw [h0] at this
  exact add_right_cancel this

theorem proper_sym (p : PGSym ℝ d) (hp : Constructed p) : Proper (.sym p) ↔ p.matrix.det = 1 := by
  obtain ⟨W, w, ho, rfl⟩ := (constructed_iff p).1 hp
  rw [block_matrix]
  constructor
  · rintro ⟨V, v, h1, h2⟩
    have := (act_unique W V w v fun x => by
      have := h1 x
      rw [PGElem.act, act_block, Option.some.injEq] at this
      exact this).1
    rw [this]; exact h2
  · intro h
    exact ⟨W, w, fun x => by rw [PGElem.act, act_block], h⟩

theorem proper_id : Proper (.id : PGElem ℝ d) := ⟨1, 0, fun x => by simp [PGElem.act], Matrix.det_one⟩

open Classical in
/-- `rotation_group()` keeps the elements which preserve orientation, in their order, and the unit cell. -/
theorem C135_rotation_group (G : PG d) (hG : ∀ e ∈ G.elems, Good e) :
    G.rotationGroup = .ok ⟨G.elems.filter fun e => decide (Proper e), G.cell⟩ := by
  unfold PG.rotationGroup
  have key : ∀ es : List (PGElem ℝ d), (∀ e ∈ es, Good e) → ∃ ls, collect keepProper es = .ok ls ∧
      ls.flatten = es.filter fun e => decide (Proper e) := by
    intro es
    induction es with
    | nil => intro _; exact ⟨[], rfl, rfl⟩
    | cons e es ih =>
      intro h
      obtain ⟨ls, h1, h2⟩ := ih fun x hx => h x (List.mem_cons_of_mem _ hx)
      cases e with
      | id =>
        refine ⟨[.id] :: ls, by simp only [collect, keepProper, h1], ?_⟩
        rw [List.filter_cons_of_pos (by simpa using proper_id), List.flatten_cons, h2]; rfl
      | other => exact absurd (h .other (by simp)) id
      | sym p =>
        have hp := proper_sym p (h (.sym p) (by simp))
        by_cases hd : p.matrix.det = 1
        · refine ⟨[.sym p] :: ls, by simp only [collect, keepProper, h1, if_pos hd], ?_⟩
          rw [List.filter_cons_of_pos (by simpa using hp.2 hd), List.flatten_cons, h2]; rfl
        · refine ⟨[] :: ls, by simp only [collect, keepProper, h1, if_neg hd], ?_⟩
          rw [List.filter_cons_of_neg (by simpa using fun h => hd (hp.1 h)), List.flatten_cons, h2]; rfl
  obtain ⟨ls, h1, h2⟩ := key G.elems hG
  rw [h1]
  simp only [h2]

/-- `change_origin(o)`: element by element the same linear part, now fixing `o`; the unit cell stays. -/
theorem C135_change_origin (G : PG d) (hG : ∀ e ∈ G.elems, Good e) (o : Fin d → ℝ) :
    ∃ G', G.changeOrigin o = .ok G' ∧ G'.cell = G.cell ∧ (∀ e ∈ G'.elems, Good e) ∧
      List.Forall₂ (fun e' e => e'.act o = some o ∧
        ∀ (W : Matrix (Fin d) (Fin d) ℝ) (w : Fin d → ℝ), (∀ x, e.act x = some (W *ᵥ x + w)) → ∀ x, e'.act (o + x) = some (o + W *ᵥ x))
        G'.elems G.elems := by
  have key : ∀ es : List (PGElem ℝ d), (∀ e ∈ es, Good e) → ∃ es', collect (elemChangeOrigin o) es = .ok es' ∧ (∀ e ∈ es', Good e) ∧
      List.Forall₂ (fun e' e => e'.act o = some o ∧
        ∀ (W : Matrix (Fin d) (Fin d) ℝ) (w : Fin d → ℝ), (∀ x, e.act x = some (W *ᵥ x + w)) → ∀ x, e'.act (o + x) = some (o + W *ᵥ x))
        es' es := by
    intro es
    induction es with
    | nil => intro _; exact ⟨[], rfl, by simp, .nil⟩
    | cons e es ih =>
      intro h
      obtain ⟨es', h1, h2, h3⟩ := ih fun x hx => h x (List.mem_cons_of_mem _ hx)
      obtain ⟨e', k1, k2, k3, k4⟩ := C42_group_change_origin e (h e (by simp)) o
      refine ⟨e' :: es', by simp only [collect, k1, h1], ?_, .cons ⟨k3, ?_⟩ h3⟩
      · intro x hx
        rcases List.mem_cons.1 hx with rfl | hx
        · exact k2
        · exact h2 x hx
      · intro W w hW x
        have := k4 x _ (hW x) _ (hW 0)
        rw [this]
        simp
  obtain ⟨es', h1, h2, h3⟩ := key G.elems hG
  refine ⟨⟨es', G.cell⟩, ?_, rfl, h2, h3⟩
  unfold PG.changeOrigin
  rw [h1]

/-- `A @ B`: the compositions, `A`'s elements running slowest; the unit cell is the one which is given, and must be the same if both
    are. -/
theorem C135_product (A B : PG d) (hA : ∀ e ∈ A.elems, Good e) (hB : ∀ e ∈ B.elems, Good e) :
    (∀ a b, A.cell = some a → B.cell = some b → a ≠ b → A.prod B = .error .valueError) ∧
    ((∀ a b, A.cell = some a → B.cell = some b → a = b) →
      ∃ G, A.prod B = .ok G ∧ (∀ c, G.cell = some c ↔ A.cell = some c ∨ B.cell = some c) ∧
        G.elems.length = A.elems.length * B.elems.length ∧
        ∀ (i j : Nat) a b, A.elems[i]? = some a → B.elems[j]? = some b →
          ∃ c, G.elems[i * B.elems.length + j]? = some c ∧ Good c ∧ ∀ x, c.act x = (b.act x).bind a.act) := by
  constructor
  · intro a b ha hb hab
    unfold PG.prod prodCell
    rw [ha, hb]
    simp [hab]
  · intro hc
    have hcell : ∃ c, prodCell A.cell B.cell = .ok c ∧ ∀ x, c = some x ↔ A.cell = some x ∨ B.cell = some x := by
      unfold prodCell
      cases hA' : A.cell with
      | none => exact ⟨B.cell, rfl, fun x => by simp⟩
      | some a =>
        cases hB' : B.cell with
        | none => exact ⟨some a, rfl, fun x => by simp⟩
        | some b =>
          have := hc a b hA' hB'
          subst this
          exact ⟨some a, by simp, fun x => by simp⟩
    obtain ⟨c, h1, h2⟩ := hcell
    have ha : List.Forall₂ (fun e (f : (Fin d → ℝ) → Option (Fin d → ℝ)) => Good e ∧ ∀ x, e.act x = f x) A.elems (A.elems.map PGElem.act) := by
      rw [List.forall₂_map_right_iff]
      exact List.forall₂_same.2 fun e he => ⟨hA e he, fun x => rfl⟩
    have hb : List.Forall₂ (fun e (f : (Fin d → ℝ) → Option (Fin d → ℝ)) => Good e ∧ ∀ x, e.act x = f x) B.elems (B.elems.map PGElem.act) := by
      rw [List.forall₂_map_right_iff]
      exact List.forall₂_same.2 fun e he => ⟨hB e he, fun x => rfl⟩
    obtain ⟨cs, h3, h4⟩ := collect_pairs_of (fun e (f : (Fin d → ℝ) → Option (Fin d → ℝ)) => Good e ∧ ∀ x, e.act x = f x)
      (fun f g x => (g x).bind f) (fun a b s t hs ht => by
        obtain ⟨c, k1, k2, k3⟩ := C42_elements a b hs.1 ht.1
        refine ⟨c, k1, k2, fun x => ?_⟩
        have e : a.act = s := funext hs.2
        rw [k3, ht.2, e]) _ _ _ _ ha hb
    have hlen : ∀ (l : List ((Fin d → ℝ) → Option (Fin d → ℝ))),
        (l.flatMap fun W => (B.elems.map PGElem.act).map fun V => fun x => (V x).bind W).length = l.length * B.elems.length := by
      intro l
      induction l with
      | nil => simp
      | cons a l ih => rw [List.flatMap_cons, List.length_append, ih]; simp; ring
    have hget : ∀ (l : List ((Fin d → ℝ) → Option (Fin d → ℝ))) (i j : Nat) f g, l[i]? = some f → (B.elems.map PGElem.act)[j]? = some g →
        (l.flatMap fun W => (B.elems.map PGElem.act).map fun V => fun x => (V x).bind W)[i * B.elems.length + j]? =
          some fun x => (g x).bind f := by
      intro l
      induction l with
      | nil => intro i j f g h; simp at h
      | cons a l ih =>
        intro i j f g hi hj
        have hjl : j < B.elems.length := by
          have := (List.getElem?_eq_some_iff.1 hj).1
          simpa using this
        cases i with
        | zero =>
          simp only [List.getElem?_cons_zero, Option.some.injEq] at hi
          subst hi
          rw [List.flatMap_cons, Nat.zero_mul, Nat.zero_add, List.getElem?_append_left (by simpa using hjl), List.getElem?_map, hj]
          rfl
        | succ i =>
          rw [List.getElem?_cons_succ] at hi
          rw [List.flatMap_cons, List.getElem?_append_right (by simp; nlinarith)]
          have e : (i + 1) * B.elems.length + j - ((B.elems.map PGElem.act).map fun V => fun x => (V x).bind a).length =
              i * B.elems.length + j := by
            simp only [List.length_map]
            rw [Nat.add_mul, Nat.one_mul]; omega
          rw [e]
          exact ih i j f g hi hj
    refine ⟨⟨cs, c⟩, ?_, h2, ?_, ?_⟩
    · unfold PG.prod
      rw [h1]
      simp only
      rw [h3]
    · show cs.length = _
      rw [h4.length_eq, hlen]; simp
    · intro i j a b hi hj
      have := hget (A.elems.map PGElem.act) i j a.act b.act (by rw [List.getElem?_map, hi]; rfl) (by rw [List.getElem?_map, hj]; rfl)
      obtain ⟨hlt, he⟩ := List.getElem?_eq_some_iff.1 this
      have hlt' : i * B.elems.length + j < cs.length := by rw [h4.length_eq]; exact hlt
      have hr := List.Forall₂.get h4 hlt' hlt
      refine ⟨cs[i * B.elems.length + j], List.getElem?_eq_getElem hlt', hr.1, fun x => ?_⟩
      have hx := hr.2 x
      simp only [List.get_eq_getElem] at hx
      rw [hx]
      exact congrFun he x

/-- `trivial_point_group` contains the identity only. -/
theorem C135_trivial : Implements (.ok (trivialPG d)) (fun W => W = 1) 1 := by
  refine implements_of _ [1] _ _ ⟨[], rfl, .cons lin_id .nil⟩ ⟨by simp, fun W => by simp⟩ ?_ rfl
  refine ⟨?_, rfl, ?_, ?_⟩
  · rintro W rfl; simp
  · rintro W V rfl rfl; simp
  · rintro W rfl; simp

/-- the changes of sign of coordinates. -/
def SignFlip (W : Matrix (Fin 3) (Fin 3) ℝ) : Prop := ∃ s : Fin 3 → ℝ, (∀ i, s i = 1 ∨ s i = -1) ∧ W = Matrix.diagonal s

theorem isGrp_flip : IsGrp SignFlip := by
  have sq : ∀ s : ℝ, s = 1 ∨ s = -1 → s * s = 1 := by rintro s (rfl | rfl) <;> norm_num
  refine ⟨?_, ⟨fun _ => 1, fun _ => .inl rfl, by simp⟩, ?_, ?_⟩
  · rintro W ⟨s, hs, rfl⟩
    rw [Matrix.diagonal_transpose, Matrix.diagonal_mul_diagonal]
    have : (fun i => s i * s i) = fun _ => (1 : ℝ) := funext fun i => sq _ (hs i)
    rw [this, Matrix.diagonal_one]
  · rintro W V ⟨s, hs, rfl⟩ ⟨t, ht, rfl⟩
    refine ⟨fun i => s i * t i, fun i => ?_, Matrix.diagonal_mul_diagonal _ _⟩
    rcases hs i with h | h <;> rcases ht i with h' | h' <;> simp [h, h']
  · rintro W ⟨s, hs, rfl⟩
    exact ⟨s, hs, Matrix.diagonal_transpose _⟩

/-- rotations among them. -/
def RotFlip (W : Matrix (Fin 3) (Fin 3) ℝ) : Prop := SignFlip W ∧ W.det = 1

theorem isGrp_rotFlip : IsGrp RotFlip :=
  ⟨fun W h => isGrp_flip.orth W h.1, ⟨isGrp_flip.one, Matrix.det_one⟩, fun W V h h' => ⟨isGrp_flip.mul _ _ h.1 h'.1, by
    rw [Matrix.det_mul, h.2, h'.2, one_mul]⟩, fun W h => ⟨isGrp_flip.tr _ h.1, by rw [Matrix.det_transpose, h.2]⟩⟩

namespace Axial
open Verif.PGrp.Cubic

theorem axis_z : ∃ a, normalise ![0, 0, 1] = some a ∧ Unit3 a ∧ rotMat Real.pi a = Matrix.diagonal ![-1, -1, 1] ∧
    reflMat a = Matrix.diagonal ![1, 1, -1] := by
  have e : radians 180 = Real.pi := by unfold radians; ring
  refine ⟨_, normalise_of (r := 1) one_pos (by simp [dotProduct, Fin.sum_univ_three]), ?_, ?_, ?_⟩
  · simp [Unit3, dotProduct, Fin.sum_univ_three]
  · rw [← e, rot_half]
    ext i j; fin_cases i <;> fin_cases j <;> simp [vecMulVec_apply] <;> norm_num
  · unfold reflMat
    ext i j; fin_cases i <;> fin_cases j <;> simp [vecMulVec_apply] <;> norm_num

theorem axis_x : ∃ a, normalise ![1, 0, 0] = some a ∧ Unit3 a ∧ rotMat Real.pi a = Matrix.diagonal ![1, -1, -1] := by
  have e : radians 180 = Real.pi := by unfold radians; ring
  refine ⟨_, normalise_of (r := 1) one_pos (by simp [dotProduct, Fin.sum_univ_three]), ?_, ?_⟩
  · simp [Unit3, dotProduct, Fin.sum_univ_three]
  · rw [← e, rot_half]
    ext i j; fin_cases i <;> fin_cases j <;> simp [vecMulVec_apply] <;> norm_num

theorem pre_cuboidRotations : ∃ Ws, Pre cuboidRotations Ws ∧ Enum Ws RotFlip ∧ Ws.length = 4 := by
  obtain ⟨a, h1, h2, h3, _⟩ := axis_z
  obtain ⟨b, k1, k2, k3⟩ := axis_x
  have hpre : Pre cuboidRotations ([1, rotMat Real.pi b].flatMap fun W => [1, rotMat Real.pi a].map fun V => W * V) := by
    unfold cuboidRotations D
    rw [asserting_ok (perp_of (by simp [dotProduct, Fin.sum_univ_three]))]
    exact pre_prod _ _ _ _ (pre_C2 k1 k2) (pre_C2 h1 h2)
  have hW : ([1, rotMat Real.pi b].flatMap fun W => [1, rotMat Real.pi a].map fun V => W * V) =
      [Matrix.diagonal ![1, 1, 1], Matrix.diagonal ![-1, -1, 1], Matrix.diagonal ![1, -1, -1], Matrix.diagonal ![-1, 1, -1]] := by
    rw [h3, k3]
    have e1 : (1 : M3) = Matrix.diagonal ![1, 1, 1] := by
      ext i j; fin_cases i <;> fin_cases j <;> simp
    rw [e1]
    simp only [List.flatMap_cons, List.flatMap_nil, List.map_cons, List.map_nil, Matrix.diagonal_mul_diagonal, List.append_nil,
      List.cons_append, List.nil_append, List.cons.injEq, and_true]
    refine ⟨?_, ?_, ?_, ?_⟩ <;> (congr 1; ext i; fin_cases i <;> simp)
  rw [hW] at hpre
  refine ⟨_, hpre, ⟨?_, fun W => ?_⟩, rfl⟩
  · have inj : ∀ s t : Fin 3 → ℝ, Matrix.diagonal s = Matrix.diagonal t → s = t := fun s t h => Matrix.diagonal_injective h
    have ne : ∀ s t : Fin 3 → ℝ, (∃ i, s i ≠ t i) → Matrix.diagonal s ≠ Matrix.diagonal t := by
      rintro s t ⟨i, hi⟩ h
      exact hi (congrFun (inj s t h) i)
    simp only [List.nodup_cons, List.mem_cons, List.not_mem_nil, or_false, not_or, List.nodup_nil, and_true, not_false_eq_true]
    refine ⟨⟨ne _ _ ⟨0, ?_⟩, ne _ _ ⟨1, ?_⟩, ne _ _ ⟨0, ?_⟩⟩, ⟨ne _ _ ⟨0, ?_⟩, ne _ _ ⟨1, ?_⟩⟩, ne _ _ ⟨0, ?_⟩⟩ <;> simp <;> norm_num
  · simp only [List.mem_cons, List.not_mem_nil, or_false]
    constructor
    · have mk : ∀ s : Fin 3 → ℝ, (∀ i, s i = 1 ∨ s i = -1) → s 0 * s 1 * s 2 = 1 → RotFlip (Matrix.diagonal s) := by
        intro s hs hp
        exact ⟨⟨s, hs, rfl⟩, by rw [Matrix.det_diagonal, Fin.prod_univ_three, hp]⟩
      rintro (rfl | rfl | rfl | rfl) <;> (refine mk _ (fun i => ?_) ?_ <;> [(fin_cases i <;> simp); simp])
    · rintro ⟨⟨s, hs, rfl⟩, hd⟩
      rw [Matrix.det_diagonal, Fin.prod_univ_three] at hd
      have e : s = ![s 0, s 1, s 2] := by ext i; fin_cases i <;> rfl
      rw [e]
      rcases hs 0 with a | a <;> rcases hs 1 with b | b <;> rcases hs 2 with c | c <;> rw [a, b, c] at hd ⊢ <;>
        first | (exfalso; norm_num at hd; done) | simp

/-- `cuboid_rotations()` consists of the four rotations which change signs of coordinates. -/
theorem C135_cuboid_rotations : Implements cuboidRotations (fun W => SignFlip W ∧ W.det = 1) 4 := by
  obtain ⟨Ws, h1, h2, h3⟩ := pre_cuboidRotations
  exact implements_of _ _ _ _ h1 h2 isGrp_rotFlip h3

/-- `cuboid()` consists of the eight changes of sign of coordinates. -/
theorem C135_cuboid : Implements cuboid SignFlip 8 := by
  obtain ⟨Ws, h1, h2, h3⟩ := pre_cuboidRotations
  obtain ⟨a, k1, k2, _, k4⟩ := axis_z
  have hM : (reflMat a)ᵀ * reflMat a = 1 := reflMat_orth k2
  have hflip : SignFlip (reflMat a) := ⟨_, fun i => by fin_cases i <;> simp, k4⟩
  have hdet := reflMat_det k2
  refine Planar.implements_congr (fun W => ?_) (implements_mirror _ _ _ _ _ _ (pre_refl k1 k2) h1 h2 isGrp_rotFlip h3 hM
    (fun h => by have := h.2; rw [hdet] at this; norm_num at this) (by rw [reflMat_sq k2]; exact isGrp_rotFlip.one) (fun W h => ?_))
  · rw [coset_iff _ hM]
    constructor
    · rintro (h | h)
      · exact h.1
      · have := isGrp_flip.mul _ _ hflip h.1
        rwa [← Matrix.mul_assoc, reflMat_tr, reflMat_sq k2, Matrix.one_mul] at this
    · intro h
      rcases orth_det W (isGrp_flip.orth W h) with hd | hd
      · exact .inl ⟨h, hd⟩
      · refine .inr ⟨isGrp_flip.mul _ _ (isGrp_flip.tr _ hflip) h, ?_⟩
        rw [Matrix.det_mul, Matrix.det_transpose, hdet, hd]; norm_num
  · exact ⟨isGrp_flip.mul _ _ (isGrp_flip.mul _ _ (isGrp_flip.tr _ hflip) h.1) hflip, conj_det _ _ hM h.2⟩

/-! ## Examples -/

/-- groups of constructed elements, one of them improper. -/
example : (∀ e ∈ ([.id, .sym ⟨block (-1 : M3) 0⟩] : List (PGElem ℝ 3)), Good e) ∧ ¬Proper (.sym ⟨block (-1 : M3) 0⟩ : PGElem ℝ 3) := by
  have h : Constructed (⟨block (-1 : M3) 0⟩ : PGSym ℝ 3) := ⟨_, _, mkPG_none _ (by simp)⟩
  refine ⟨fun e he => ?_, ?_⟩
  · simp only [List.mem_cons, List.not_mem_nil, or_false] at he
    rcases he with rfl | rfl
    · trivial
    · exact h
  · rw [proper_sym _ h, block_matrix, det_neg_one]
    norm_num

end Axial
end Verif.PGrp
