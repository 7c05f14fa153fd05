import Verif.Model.PointGroup
import Verif.Props.Conjugacy
import Mathlib.Data.Rat.Floor
import Mathlib.LinearAlgebra.Matrix.Notation
import Mathlib.Tactic.FinCases
import Mathlib.Tactic.Abel

/-! C42: affine symmetries and point groups; C43: little-group characters. -/

set_option linter.unusedSectionVars false
set_option linter.unusedVariables false

namespace Verif.PGrp
open Verif.Hilbert (Err)
open Verif.Grp (forall2_get)
open Matrix

section
variable {K : Type} [Field K] [DecidableEq K] {d : Nat}

/-! ## Specification -/

/-- the symmetry was made by the constructor. -/
def Constructed (p : PGSym K d) : Prop := ∃ W w, mkPG W w = .ok p

/-- the map `x ↦ W x + w`. -/
def affineMap (W : Matrix (Fin d) (Fin d) K) (w x : Fin d → K) : Fin d → K := fun i => (∑ j, W i j * x j) + w i

/-! ## Lemmas -/

theorem affineMap_eq (W : Matrix (Fin d) (Fin d) K) (w x : Fin d → K) : affineMap W w x = W *ᵥ x + w := by
  ext i; simp [affineMap, Matrix.mulVec, dotProduct]

theorem block_matrix (W : Matrix (Fin d) (Fin d) K) (w : Fin d → K) : (⟨block W w⟩ : PGSym K d).matrix = W := by
  simp [PGSym.matrix, block]

theorem block_translation (W : Matrix (Fin d) (Fin d) K) (w : Fin d → K) : (⟨block W w⟩ : PGSym K d).translation = w := by
  ext i; simp [PGSym.translation, block]

theorem block_inj {W V : Matrix (Fin d) (Fin d) K} {w v : Fin d → K} (h : block W w = block V v) : W = V ∧ w = v := by
  have h1 := block_matrix W w
  have h2 := block_translation W w
  rw [h, block_matrix] at h1
  rw [h, block_translation] at h2
  exact ⟨h1.symm, h2.symm⟩

theorem block_mul (W V : Matrix (Fin d) (Fin d) K) (w v : Fin d → K) : block W w * block V v = block (W * V) (W *ᵥ v + w) := by
  unfold block
  rw [Matrix.fromBlocks_multiply]
  congr 1
  · simp
  · ext i j
    simp [Matrix.mul_apply, Matrix.mulVec, dotProduct]
  · simp
  · simp

theorem block_one : block (1 : Matrix (Fin d) (Fin d) K) 0 = 1 := by
  unfold block
  rw [← Matrix.fromBlocks_one]
  congr 1

theorem mkPG_ok (W : Matrix (Fin d) (Fin d) K) (w : Fin d → K) (h : Wᵀ * W = 1) : mkPG W (some w) = .ok ⟨block W w⟩ := by
  unfold mkPG; rw [if_pos h]

theorem constructed_iff (p : PGSym K d) : Constructed p ↔ ∃ W w, Wᵀ * W = 1 ∧ p = ⟨block W w⟩ := by
  constructor
  · rintro ⟨W, w, h⟩
    unfold mkPG at h
    split_ifs at h with ho
    cases w with
    | none => simp only [Except.ok.injEq] at h; exact ⟨W, _, ho, h.symm⟩
    | some w => simp only [Except.ok.injEq] at h; exact ⟨W, w, ho, h.symm⟩
  · rintro ⟨W, w, ho, rfl⟩
    exact ⟨W, some w, mkPG_ok W w ho⟩

theorem act_block (W : Matrix (Fin d) (Fin d) K) (w x : Fin d → K) : (⟨block W w⟩ : PGSym K d).act x = W *ᵥ x + w := by
  unfold PGSym.act
  rw [block_matrix, block_translation, Matrix.vecMul_transpose]

theorem ortho_mul {W V : Matrix (Fin d) (Fin d) K} (h : Wᵀ * W = 1) (h' : Vᵀ * V = 1) : (W * V)ᵀ * (W * V) = 1 := by
  rw [Matrix.transpose_mul, Matrix.mul_assoc, ← Matrix.mul_assoc Wᵀ, h, Matrix.one_mul, h']

/-! ## C42 -/

/-- the constructor accepts exactly the orthogonal matrices; the result maps `x` to `W x + w`, and its properties return `W` and `w`. -/
theorem C42_constructor (W : Matrix (Fin d) (Fin d) K) (w : Option (Fin d → K)) :
    ((∀ i j, ∑ k, W k i * W k j = if i = j then 1 else 0) → ∃ p, mkPG W w = .ok p ∧ p.matrix = W ∧ p.translation = w.getD 0
      ∧ ∀ x, p.act x = affineMap W (w.getD 0) x)
    ∧ ((∃ i j, ∑ k, W k i * W k j ≠ if i = j then 1 else 0) → mkPG W w = .error .valueError) := by
  have horth : Wᵀ * W = 1 ↔ ∀ i j, ∑ k, W k i * W k j = if i = j then 1 else 0 := by
    rw [← Matrix.ext_iff]
    simp only [Matrix.mul_apply, Matrix.transpose_apply, Matrix.one_apply]
  constructor
  · intro h
    refine ⟨⟨block W (w.getD 0)⟩, ?_, block_matrix _ _, block_translation _ _, fun x => by rw [act_block, affineMap_eq]⟩
    unfold mkPG
    rw [if_pos (horth.2 h)]
    cases w <;> rfl
  · rintro ⟨i, j, h⟩
    unfold mkPG
    rw [if_neg fun h' => h (horth.1 h' i j)]

/-- the product is the composed map, and its affine matrix the product of the affine matrices. -/
theorem C42_product (p q : PGSym K d) (hp : Constructed p) (hq : Constructed q) :
    ∃ r, p.prod q = .ok r ∧ Constructed r ∧ (∀ x, r.act x = p.act (q.act x)) ∧ r.affine = p.affine * q.affine := by
  obtain ⟨W, w, h1, rfl⟩ := (constructed_iff p).1 hp
  obtain ⟨V, v, h2, rfl⟩ := (constructed_iff q).1 hq
  have hok := mkPG_ok (W * V) (W *ᵥ v + w) (ortho_mul h1 h2)
  refine ⟨⟨block (W * V) (W *ᵥ v + w)⟩, ?_, ⟨_, _, hok⟩, ?_, (block_mul W V w v).symm⟩
  · unfold PGSym.prod
    rw [block_matrix, block_matrix, block_translation, block_translation]
    exact hok
  · intro x
    rw [act_block, act_block, act_block, Matrix.mulVec_add, Matrix.mulVec_mulVec, add_assoc]

/-- products are associative. -/
theorem C42_assoc (p q r pq qr l m : PGSym K d) (hp : Constructed p) (hq : Constructed q) (hr : Constructed r)
    (h1 : p.prod q = .ok pq) (h2 : q.prod r = .ok qr) (h3 : pq.prod r = .ok l) (h4 : p.prod qr = .ok m) : l = m := by
  obtain ⟨_, e1, c1, _, m1⟩ := C42_product p q hp hq
  obtain rfl := Except.ok.inj (e1.symm.trans h1)
  obtain ⟨_, e2, c2, _, m2⟩ := C42_product q r hq hr
  obtain rfl := Except.ok.inj (e2.symm.trans h2)
  obtain ⟨_, e3, _, _, m3⟩ := C42_product _ r c1 hr
  obtain rfl := Except.ok.inj (e3.symm.trans h3)
  obtain ⟨_, e4, _, _, m4⟩ := C42_product p _ hp c2
  obtain rfl := Except.ok.inj (e4.symm.trans h4)
  have : ∀ a b : PGSym K d, a.affine = b.affine → a = b := by
    rintro ⟨a⟩ ⟨b⟩ h; exact congrArg _ h
  apply this
  rw [m3, m4, m1, m2, Matrix.mul_assoc]

/-- `preimage` is the inverse map, from both sides. -/
theorem C42_preimage (p : PGSym K d) (hp : Constructed p) (x : Fin d → K) :
    p.act (p.preimage x) = x ∧ p.preimage (p.act x) = x := by
  obtain ⟨W, w, h1, rfl⟩ := (constructed_iff p).1 hp
  have h2 : W * Wᵀ = 1 := mul_eq_one_comm.1 h1
  unfold PGSym.preimage
  rw [act_block, act_block, block_matrix, block_translation]
  constructor
  · rw [← Matrix.mulVec_transpose, Matrix.mulVec_mulVec, h2, Matrix.one_mulVec, sub_add_cancel]
  · rw [add_sub_cancel_right, ← Matrix.mulVec_transpose, Matrix.mulVec_mulVec, h1, Matrix.one_mulVec]

/-- `k_action` is the map without its translation; the products of wave vectors and displacements are unchanged. -/
theorem C42_k_action (p : PGSym K d) (hp : Constructed p) (k x y : Fin d → K) :
    p.kAction k + p.translation = p.act k
    ∧ ∑ i, p.kAction k i * (p.act x i - p.act y i) = ∑ i, k i * (x i - y i) := by
  obtain ⟨W, w, h1, rfl⟩ := (constructed_iff p).1 hp
  refine ⟨rfl, ?_⟩
  have hk : (⟨block W w⟩ : PGSym K d).kAction k = W *ᵥ k := by
    unfold PGSym.kAction
    rw [block_matrix, Matrix.vecMul_transpose]
  have hd : (fun i => (⟨block W w⟩ : PGSym K d).act x i - (⟨block W w⟩ : PGSym K d).act y i) = W *ᵥ (x - y) := by
    ext i
    rw [act_block, act_block, Matrix.mulVec_sub]
    simp
  have : ∑ i, (⟨block W w⟩ : PGSym K d).kAction k i * ((⟨block W w⟩ : PGSym K d).act x i - (⟨block W w⟩ : PGSym K d).act y i)
      = (W *ᵥ k) ⬝ᵥ (W *ᵥ (x - y)) := by
    rw [hk, ← hd]; rfl
  rw [this, Matrix.dotProduct_mulVec, Matrix.vecMul_mulVec, h1, Matrix.vecMul_one]
  rfl

/-- `change_origin` gives the map with the same matrix around `o`: it leaves `o` in place and acts on `o + x` as the matrix on `x`. -/
theorem C42_change_origin (p : PGSym K d) (hp : Constructed p) (o : Fin d → K) :
    ∃ q, p.changeOrigin o = .ok q ∧ Constructed q ∧ q.matrix = p.matrix ∧ q.act o = o
      ∧ ∀ x, q.act (o + x) = o + affineMap p.matrix 0 x := by
  obtain ⟨W, w, h1, rfl⟩ := (constructed_iff p).1 hp
  have hok := mkPG_ok W ((1 - W) *ᵥ o) h1
  refine ⟨⟨block W ((1 - W) *ᵥ o)⟩, ?_, ⟨_, _, hok⟩, by rw [block_matrix, block_matrix], ?_, ?_⟩
  · unfold PGSym.changeOrigin
    rw [block_matrix]
    exact hok
  · rw [act_block, Matrix.sub_mulVec, Matrix.one_mulVec]; abel
  · intro x
    rw [act_block, Matrix.sub_mulVec, Matrix.one_mulVec, block_matrix, affineMap_eq, Matrix.mulVec_add]
    simp only [add_zero]
    abel

/-- `change_origin` respects products. -/
theorem C42_change_origin_product (p q pq p' q' r r' : PGSym K d) (hp : Constructed p) (hq : Constructed q) (o : Fin d → K)
    (h1 : p.prod q = .ok pq) (h2 : p.changeOrigin o = .ok p') (h3 : q.changeOrigin o = .ok q') (h4 : pq.changeOrigin o = .ok r)
    (h5 : p'.prod q' = .ok r') : r = r' := by
  obtain ⟨W, w, o1, rfl⟩ := (constructed_iff p).1 hp
  obtain ⟨V, v, o2, rfl⟩ := (constructed_iff q).1 hq
  unfold PGSym.prod at h1 h5
  unfold PGSym.changeOrigin at h2 h3 h4
  rw [block_matrix, block_matrix, block_translation, block_translation, mkPG_ok _ _ (ortho_mul o1 o2)] at h1
  obtain rfl := Except.ok.inj h1
  rw [block_matrix, mkPG_ok _ _ o1] at h2
  obtain rfl := Except.ok.inj h2
  rw [block_matrix, mkPG_ok _ _ o2] at h3
  obtain rfl := Except.ok.inj h3
  rw [block_matrix, mkPG_ok _ _ (ortho_mul o1 o2)] at h4
  obtain rfl := Except.ok.inj h4
  rw [block_matrix, block_matrix, block_translation, block_translation, mkPG_ok _ _ (ortho_mul o1 o2)] at h5
  obtain rfl := Except.ok.inj h5
  congr 2
  rw [Matrix.mulVec_mulVec, ← Matrix.add_mulVec]
  congr 1
  rw [Matrix.mul_sub, Matrix.mul_one]
  abel

/-! ## Point groups -/

/-- elements which are identities or constructed symmetries. -/
def Good : PGElem K d → Prop
  | .id => True
  | .sym p => Constructed p
  | .other => False

theorem good_rep (e : PGElem K d) (he : Good e) :
    ∃ W w, Wᵀ * W = 1 ∧ affineOf e = .ok (block W w) ∧ ∀ x, e.act x = some (W *ᵥ x + w) := by
  cases e with
  | id => exact ⟨1, 0, by simp, by rw [block_one]; rfl, fun x => by simp [PGElem.act]⟩
  | sym p =>
    obtain ⟨W, w, h, rfl⟩ := (constructed_iff p).1 he
    exact ⟨W, w, h, rfl, fun x => by rw [PGElem.act, act_block]⟩
  | other => exact absurd he id

/-- products of elements of point groups are composed maps. -/
theorem C42_elements (a b : PGElem K d) (ha : Good a) (hb : Good b) :
    ∃ c, elemProd a b = .ok c ∧ Good c ∧ ∀ x, c.act x = (b.act x).bind a.act := by
  cases a with
  | id => exact ⟨b, rfl, hb, fun x => by cases b <;> simp [PGElem.act]⟩
  | other => exact absurd ha id
  | sym p =>
    cases b with
    | id => exact ⟨.sym p, rfl, ha, fun x => by simp [PGElem.act]⟩
    | other => exact absurd hb id
    | sym q =>
      obtain ⟨r, h1, h2, h3, _⟩ := C42_product p q ha hb
      refine ⟨.sym r, by simp [elemProd, h1], h2, fun x => ?_⟩
      simp [PGElem.act, h3]

/-- `PointGroup.change_origin` leaves the origin in place and keeps the rotational part of every element. -/
theorem C42_group_change_origin (e : PGElem K d) (he : Good e) (o : Fin d → K) :
    ∃ e', elemChangeOrigin o e = .ok e' ∧ Good e' ∧ e'.act o = some o
      ∧ ∀ x y, e.act x = some y → ∀ z, e.act 0 = some z → e'.act (o + x) = some (o + (y - z)) := by
  cases e with
  | id =>
    refine ⟨.id, rfl, trivial, rfl, ?_⟩
    intro x y hx z hz
    simp only [PGElem.act, Option.some.injEq] at *
    subst hx hz
    simp
  | other => exact absurd he id
  | sym p =>
    obtain ⟨q, h1, h2, h3, h4, h5⟩ := C42_change_origin p he o
    refine ⟨.sym q, by simp [elemChangeOrigin, h1], h2, by simp [PGElem.act, h4], ?_⟩
    intro x y hx z hz
    obtain ⟨W, w, ho, rfl⟩ := (constructed_iff p).1 he
    simp only [PGElem.act, Option.some.injEq] at *
    rw [h5, affineMap_eq, block_matrix]
    rw [act_block] at hx hz
    subst hx hz
    simp

theorem toArray_spec (es : List (PGElem K d)) (hes : ∀ e ∈ es, Good e) :
    ∃ ms, toArray es = .ok ms ∧ List.Forall₂ (fun m e => ∃ W w, Wᵀ * W = 1 ∧ m = block W w ∧ ∀ x, e.act x = some (W *ᵥ x + w)) ms es := by
  induction es with
  | nil => exact ⟨[], rfl, List.Forall₂.nil⟩
  | cons e es ih =>
    obtain ⟨ms, h1, h2⟩ := ih fun e he => hes e (List.mem_cons_of_mem _ he)
    obtain ⟨W, w, ho, ha, hx⟩ := good_rep e (hes e (by simp))
    exact ⟨block W w :: ms, by rw [toArray, ha, h1], List.Forall₂.cons ⟨W, w, ho, rfl, hx⟩ h2⟩

/-- canonical forms compare the rotational parts, and the translations up to the vectors in `L` (the lattice translations, or none
    for a group without a unit cell). -/
def Faithful {κ : Type} (canon : Matrix (Fin d ⊕ Unit) (Fin d ⊕ Unit) K → κ) (L : AddSubgroup (Fin d → K)) : Prop :=
  ∀ W w V v, canon (block W w) = canon (block V v) ↔ W = V ∧ w - v ∈ L

section
variable {κ : Type} [DecidableEq κ]

theorem lookup_spec (keys : List κ) (k : κ) :
    (∀ i, lookup keys k = .ok i → keys[i]? = some k) ∧ (k ∈ keys → ∃ i, lookup keys k = .ok i)
    ∧ (k ∉ keys → lookup keys k = .error .keyError) := by
  refine ⟨?_, ?_, ?_⟩
  · intro i h
    unfold lookup at h
    split_ifs at h with hm
    simp only [Except.ok.injEq] at h
    have hlt : keys.reverse.idxOf k < keys.length := by
      have := List.idxOf_lt_length_iff.2 (List.mem_reverse.2 hm)
      simpa using this
    have hget := List.getElem?_idxOf (List.mem_reverse.2 hm)
    rwa [List.getElem?_reverse hlt, h] at hget
  · intro h
    exact ⟨_, by unfold lookup; rw [if_pos h]⟩
  · intro h
    unfold lookup
    rw [if_neg h]

theorem lookupAll_spec (keys ks : List κ) :
    (∀ is, lookupAll keys ks = .ok is → List.Forall₂ (fun i k => keys[i]? = some k) is ks)
    ∧ ((∀ k ∈ ks, k ∈ keys) → ∃ is, lookupAll keys ks = .ok is)
    ∧ ((∃ k ∈ ks, k ∉ keys) → lookupAll keys ks = .error .runtimeError) := by
  induction ks with
  | nil =>
    refine ⟨?_, fun _ => ⟨[], rfl⟩, by simp⟩
    intro is h
    simp only [lookupAll, Except.ok.injEq] at h
    subst h
    exact List.Forall₂.nil
  | cons k ks ih =>
    obtain ⟨i1, i2, i3⟩ := ih
    obtain ⟨l1, l2, l3⟩ := lookup_spec keys k
    refine ⟨?_, ?_, ?_⟩
    · intro is h
      rw [lookupAll] at h
      rcases hl : lookup keys k with e | i
      · rw [hl] at h; simp at h
      · rw [hl] at h
        rcases hr : lookupAll keys ks with e | is'
        · rw [hr] at h; simp at h
        · rw [hr] at h
          simp only [Except.ok.injEq] at h
          subst h
          exact List.Forall₂.cons (l1 i hl) (i1 is' hr)
    · intro h
      obtain ⟨i, hi⟩ := l2 (h k (by simp))
      obtain ⟨is, his⟩ := i2 fun k hk => h k (List.mem_cons_of_mem _ hk)
      exact ⟨i :: is, by rw [lookupAll, hi, his]⟩
    · rintro ⟨k', hk', hn⟩
      rw [lookupAll]
      by_cases hm : k ∈ keys
      · obtain ⟨i, hi⟩ := l2 hm
        rw [hi]
        rcases List.mem_cons.1 hk' with rfl | hk'
        · exact absurd hm hn
        · rw [i3 ⟨k', hk', hn⟩]
      · rw [l3 hm]

variable {canon : Matrix (Fin d ⊕ Unit) (Fin d ⊕ Unit) K → κ} {L : AddSubgroup (Fin d → K)}

theorem block_inv (W : Matrix (Fin d) (Fin d) K) (w : Fin d → K) (h : Wᵀ * W = 1) :
    (block W w)⁻¹ = block Wᵀ (-(Wᵀ *ᵥ w)) := by
  apply Matrix.inv_eq_left_inv
  rw [block_mul, h, ← block_one]
  congr 1
  simp

/-- `inverse[i]` is the index of an element which undoes element `i`, up to a vector in `L`. -/
theorem C42_inverse (hc : Faithful canon L) (es : List (PGElem K d)) (hes : ∀ e ∈ es, Good e) (inv : List Nat)
    (h : inverse canon es = .ok inv) :
    inv.length = es.length ∧ ∀ (i : Nat) e, es[i]? = some e → ∃ j e' t, inv[i]? = some j ∧ es[j]? = some e' ∧ t ∈ L
      ∧ ∀ x, (e.act x).bind e'.act = some (x + t) := by
  obtain ⟨ms, hms, hf⟩ := toArray_spec es hes
  unfold inverse at h
  rw [hms] at h
  have hl := (lookupAll_spec (ms.map canon) (ms.map fun m => canon m⁻¹)).1 inv h
  refine ⟨by rw [hl.length_eq, List.length_map, hf.length_eq], ?_⟩
  intro i e hi
  obtain ⟨m, hm, W, w, ho, rfl, hx⟩ := forall2_get hf i e hi
  obtain ⟨j, hj, hkey⟩ := forall2_get hl i (canon (block W w)⁻¹) (by rw [List.getElem?_map, hm]; rfl)
  rw [List.getElem?_map, Option.map_eq_some_iff] at hkey
  obtain ⟨m', hm', hcan⟩ := hkey
  have hjlt : j < es.length := by rw [← hf.length_eq]; exact (List.getElem?_eq_some_iff.1 hm').1
  have hj' : es[j]? = some es[j] := List.getElem?_eq_getElem hjlt
  obtain ⟨m'', hm'', V, v, ho', rfl, hx'⟩ := forall2_get hf j _ hj'
  obtain rfl := Option.some.inj (hm''.symm.trans hm')
  rw [block_inv W w ho, hc] at hcan
  obtain ⟨rfl, ht⟩ := hcan
  refine ⟨j, es[j], _, hj, hj', ht, ?_⟩
  intro x
  rw [hx, Option.bind_some, hx', Matrix.mulVec_add, Matrix.mulVec_mulVec, ho, Matrix.one_mulVec]
  congr 1
  abel

/-- every element has an inverse up to `L` in the list: `inverse` succeeds; otherwise a RuntimeError is raised. -/
theorem C42_inverse_exists (hc : Faithful canon L) (es : List (PGElem K d)) (hes : ∀ e ∈ es, Good e) :
    ((∀ e ∈ es, ∃ e' ∈ es, ∃ t ∈ L, ∀ x, (e.act x).bind e'.act = some (x + t)) → ∃ inv, inverse canon es = .ok inv)
    ∧ ((∃ e ∈ es, ∀ e' ∈ es, ∀ t ∈ L, ∃ x, (e.act x).bind e'.act ≠ some (x + t)) → inverse canon es = .error .runtimeError) := by
  obtain ⟨ms, hms, hf⟩ := toArray_spec es hes
  have hkey : ∀ (i : Nat) e m, es[i]? = some e → ms[i]? = some m → ((canon m⁻¹ ∈ ms.map canon) ↔
      ∃ e' ∈ es, ∃ t ∈ L, ∀ x, (e.act x).bind e'.act = some (x + t)) := by
    intro i e m hi hm
    obtain ⟨m', hm', W, w, ho, rfl, hx⟩ := forall2_get hf i e hi
    obtain rfl := Option.some.inj (hm'.symm.trans hm)
    rw [block_inv W w ho, List.mem_map]
    constructor
    · rintro ⟨m2, hm2, hcan⟩
      obtain ⟨j, hj⟩ := List.mem_iff_getElem?.1 hm2
      have hjlt : j < es.length := by rw [← hf.length_eq]; exact (List.getElem?_eq_some_iff.1 hj).1
      obtain ⟨m3, hm3, V, v, ho', rfl, hx'⟩ := forall2_get hf j _ (List.getElem?_eq_getElem hjlt)
      obtain rfl := Option.some.inj (hm3.symm.trans hj)
      rw [hc] at hcan
      obtain ⟨rfl, ht⟩ := hcan
      refine ⟨es[j], List.getElem_mem hjlt, _, ht, ?_⟩
      intro x
      rw [hx, Option.bind_some, hx', Matrix.mulVec_add, Matrix.mulVec_mulVec, ho, Matrix.one_mulVec]
      congr 1
      abel
    · rintro ⟨e', he', t, ht, hall⟩
      obtain ⟨j, hj⟩ := List.mem_iff_getElem?.1 he'
      obtain ⟨m3, hm3, V, v, ho', rfl, hx'⟩ := forall2_get hf j e' hj
      refine ⟨_, List.mem_of_getElem? hm3, (hc _ _ _ _).2 ?_⟩
      have h1 : ∀ x, (V * W) *ᵥ x + (V *ᵥ w + v) = x + t := by
        intro x
        have := hall x
        rw [hx, Option.bind_some, hx', Option.some.injEq, Matrix.mulVec_add, Matrix.mulVec_mulVec, add_assoc] at this
        exact this
      have h0 : V *ᵥ w + v = t := by simpa using h1 0
      have h2 : V * W = 1 := by
        apply Matrix.ext_of_mulVec_single
        intro i
        have := h1 (Pi.single i 1)
        rw [h0, add_left_inj] at this
        rw [this, Matrix.one_mulVec]
      have h3 : V = Wᵀ := by
        have h4 : W * Wᵀ = 1 := mul_eq_one_comm.1 ho
        calc V = V * (W * Wᵀ) := by rw [h4, Matrix.mul_one]
          _ = Wᵀ := by rw [← Matrix.mul_assoc, h2, Matrix.one_mul]
      subst h3
      refine ⟨rfl, ?_⟩
      rw [sub_neg_eq_add, add_comm, h0]
      exact ht
  obtain ⟨_, l2, l3⟩ := lookupAll_spec (ms.map canon) (ms.map fun m => canon m⁻¹)
  unfold inverse
  rw [hms]
  constructor
  · intro hall
    apply l2
    intro k hk
    obtain ⟨m, hm, rfl⟩ := List.mem_map.1 hk
    obtain ⟨i, hi⟩ := List.mem_iff_getElem?.1 hm
    have hilt : i < es.length := by rw [← hf.length_eq]; exact (List.getElem?_eq_some_iff.1 hi).1
    exact (hkey i _ m (List.getElem?_eq_getElem hilt) hi).2 (hall _ (List.getElem_mem hilt))
  · rintro ⟨e, he, hno⟩
    apply l3
    obtain ⟨i, hi⟩ := List.mem_iff_getElem?.1 he
    obtain ⟨m, hm, _⟩ := forall2_get hf i e hi
    refine ⟨canon m⁻¹, List.mem_map.2 ⟨m, List.mem_of_getElem? hm, rfl⟩, ?_⟩
    rw [hkey i e m hi hm]
    push Not
    exact hno

theorem productRows_spec (ms gs : List (Matrix (Fin d ⊕ Unit) (Fin d ⊕ Unit) K)) :
    (∀ T, productRows canon ms gs = .ok T → List.Forall₂ (fun (t : List Nat) g =>
      List.Forall₂ (fun u h => (ms.map canon)[u]? = some (canon (g * h))) t ms) T gs)
    ∧ ((∀ g ∈ gs, ∀ h ∈ ms, canon (g * h) ∈ ms.map canon) → ∃ T, productRows canon ms gs = .ok T)
    ∧ ((∃ g ∈ gs, ∃ h ∈ ms, canon (g * h) ∉ ms.map canon) → productRows canon ms gs = .error .runtimeError) := by
  induction gs with
  | nil =>
    refine ⟨?_, fun _ => ⟨[], rfl⟩, by simp⟩
    intro T h
    simp only [productRows, Except.ok.injEq] at h
    subst h
    exact List.Forall₂.nil
  | cons g gs ih =>
    obtain ⟨i1, i2, i3⟩ := ih
    obtain ⟨l1, l2, l3⟩ := lookupAll_spec (ms.map canon) (ms.map fun h => canon (g * h))
    refine ⟨?_, ?_, ?_⟩
    · intro T h
      rw [productRows] at h
      rcases hl : lookupAll (ms.map canon) (ms.map fun h => canon (g * h)) with e | t
      · rw [hl] at h; simp at h
      · rw [hl] at h
        rcases hr : productRows canon ms gs with e | T'
        · rw [hr] at h; simp at h
        · rw [hr] at h
          simp only [Except.ok.injEq] at h
          subst h
          have := l1 t hl
          rw [List.forall₂_map_right_iff] at this
          exact List.Forall₂.cons this (i1 T' hr)
    · intro h
      obtain ⟨t, ht⟩ := l2 (by
        intro k hk
        obtain ⟨q, hq, rfl⟩ := List.mem_map.1 hk
        exact h g (by simp) q hq)
      obtain ⟨T, hT⟩ := i2 fun j hj => h j (List.mem_cons_of_mem _ hj)
      exact ⟨t :: T, by rw [productRows, ht, hT]⟩
    · rintro ⟨j, hj, q, hq, hn⟩
      rw [productRows]
      by_cases hall : ∀ q ∈ ms, canon (g * q) ∈ ms.map canon
      · obtain ⟨t, ht⟩ := l2 (by
          intro k hk
          obtain ⟨q, hq, rfl⟩ := List.mem_map.1 hk
          exact hall q hq)
        rw [ht]
        rcases List.mem_cons.1 hj with rfl | hj
        · exact absurd (hall q hq) hn
        · rw [i3 ⟨j, hj, q, hq, hn⟩]
      · push Not at hall
        obtain ⟨q', hq', hn'⟩ := hall
        rw [l3 ⟨_, List.mem_map.2 ⟨q', hq', rfl⟩, hn'⟩]

/-- `product_table[g, h]` is the index of an element `u` with `u(x) = g⁻¹(h(x))`, up to a vector in `L`. -/
theorem C42_product_table (hc : Faithful canon L) (es : List (PGElem K d)) (hes : ∀ e ∈ es, Good e) (T : List (List Nat))
    (h : productTable canon es = .ok T) :
    T.length = es.length ∧ ∀ (i j : Nat) g k, es[i]? = some g → es[j]? = some k →
      ∃ row n u t, T[i]? = some row ∧ row.length = es.length ∧ row[j]? = some n ∧ es[n]? = some u ∧ t ∈ L
        ∧ ∀ x y, g.act y = k.act x → u.act x = some (y + t) := by
  obtain ⟨ms, hms, hf⟩ := toArray_spec es hes
  unfold productTable at h
  rw [hms] at h
  simp only at h
  rcases hp : productRows canon ms ms with e | rows
  · rw [hp] at h; simp at h
  rw [hp] at h
  simp only at h
  rcases hi : inverse canon es with e | inv
  · rw [hi] at h; simp at h
  rw [hi] at h
  simp only [Except.ok.injEq] at h
  subst h
  obtain ⟨hlen, hinv⟩ := C42_inverse hc es hes inv hi
  have hrows := (productRows_spec (canon := canon) ms ms).1 rows hp
  refine ⟨by rw [List.length_map, hlen], ?_⟩
  intro i j g k hg hk
  obtain ⟨i', g', t1, hi1, hi2, ht1, hact1⟩ := hinv i g hg
  obtain ⟨mg, hmg, W, w, ho, rfl, hx⟩ := forall2_get hf i' g' hi2
  obtain ⟨mk, hmk, V, v, ho', rfl, hx'⟩ := forall2_get hf j k hk
  obtain ⟨row, hrow, hr2⟩ := forall2_get hrows i' _ hmg
  obtain ⟨n, hn, hcan⟩ := forall2_get hr2 j _ hmk
  rw [List.getElem?_map, Option.map_eq_some_iff] at hcan
  obtain ⟨mu, hmu, hcan⟩ := hcan
  have hnlt : n < es.length := by rw [← hf.length_eq]; exact (List.getElem?_eq_some_iff.1 hmu).1
  obtain ⟨mu', hmu', U, u, ho'', rfl, hx''⟩ := forall2_get hf n _ (List.getElem?_eq_getElem hnlt)
  obtain rfl := Option.some.inj (hmu'.symm.trans hmu)
  rw [block_mul, hc] at hcan
  obtain ⟨rfl, ht2⟩ := hcan
  refine ⟨row, n, es[n], _, ?_, by rw [hr2.length_eq, hf.length_eq], hn, List.getElem?_eq_getElem hnlt, L.add_mem ht1 ht2, ?_⟩
  · rw [List.getElem?_map, hi1]
    simp only [Option.map_some, Option.some.injEq]
    rw [List.getD_eq_getElem?_getD, hrow]
    rfl
  · intro x y hxy
    have h1 := hact1 y
    rw [hxy, hx', Option.bind_some, hx, Option.some.injEq] at h1
    rw [hx'']
    congr 1
    rw [← add_assoc, ← h1, Matrix.mulVec_add, Matrix.mulVec_mulVec]
    abel

/-- a list which is not closed (up to `L`) under products is rejected with a RuntimeError. -/
theorem C42_unclosed (hc : Faithful canon L) (es : List (PGElem K d)) (hes : ∀ e ∈ es, Good e)
    (h : ∃ a ∈ es, ∃ b ∈ es, ∀ c ∈ es, ∀ t ∈ L, ∃ x y, (b.act x).bind a.act = some y ∧ c.act x ≠ some (y + t)) :
    productTable canon es = .error .runtimeError := by
  obtain ⟨ms, hms, hf⟩ := toArray_spec es hes
  obtain ⟨a, ha, b, hb, hno⟩ := h
  unfold productTable
  rw [hms]
  simp only
  rw [(productRows_spec (canon := canon) ms ms).2.2]
  obtain ⟨i, hi⟩ := List.mem_iff_getElem?.1 ha
  obtain ⟨j, hj⟩ := List.mem_iff_getElem?.1 hb
  obtain ⟨ma, hma, W, w, ho, rfl, hx⟩ := forall2_get hf i a hi
  obtain ⟨mb, hmb, V, v, ho', rfl, hx'⟩ := forall2_get hf j b hj
  refine ⟨_, List.mem_of_getElem? hma, _, List.mem_of_getElem? hmb, ?_⟩
  intro hm
  obtain ⟨mu, hmu, hcan⟩ := List.mem_map.1 hm
  obtain ⟨n, hn⟩ := List.mem_iff_getElem?.1 hmu
  have hnlt : n < es.length := by rw [← hf.length_eq]; exact (List.getElem?_eq_some_iff.1 hn).1
  obtain ⟨mu', hmu', U, u, ho'', rfl, hx''⟩ := forall2_get hf n _ (List.getElem?_eq_getElem hnlt)
  obtain rfl := Option.some.inj (hmu'.symm.trans hn)
  rw [block_mul, hc] at hcan
  obtain ⟨rfl, ht2⟩ := hcan
  obtain ⟨x, y, h1, h2⟩ := hno _ (List.getElem_mem hnlt) _ ht2
  apply h2
  rw [hx', Option.bind_some, hx, Option.some.injEq] at h1
  rw [hx'', ← h1, Matrix.mulVec_add, Matrix.mulVec_mulVec]
  congr 1
  abel

/-- a list closed (up to `L`) under products and inverses has a product table. -/
theorem C42_closed (hc : Faithful canon L) (es : List (PGElem K d)) (hes : ∀ e ∈ es, Good e)
    (hinv : ∀ e ∈ es, ∃ e' ∈ es, ∃ t ∈ L, ∀ x, (e.act x).bind e'.act = some (x + t))
    (hprod : ∀ a ∈ es, ∀ b ∈ es, ∃ c ∈ es, ∃ t ∈ L, ∀ x y, (b.act x).bind a.act = some y → c.act x = some (y + t)) :
    ∃ T, productTable canon es = .ok T := by
  obtain ⟨ms, hms, hf⟩ := toArray_spec es hes
  obtain ⟨inv, hi⟩ := (C42_inverse_exists hc es hes).1 hinv
  obtain ⟨rows, hr⟩ := (productRows_spec (canon := canon) ms ms).2.1 (by
    intro ma hma mb hmb
    obtain ⟨i, hi⟩ := List.mem_iff_getElem?.1 hma
    obtain ⟨j, hj⟩ := List.mem_iff_getElem?.1 hmb
    have hilt : i < es.length := by rw [← hf.length_eq]; exact (List.getElem?_eq_some_iff.1 hi).1
    have hjlt : j < es.length := by rw [← hf.length_eq]; exact (List.getElem?_eq_some_iff.1 hj).1
    obtain ⟨ma', hma', W, w, ho, rfl, hx⟩ := forall2_get hf i _ (List.getElem?_eq_getElem hilt)
    obtain rfl := Option.some.inj (hma'.symm.trans hi)
    obtain ⟨mb', hmb', V, v, ho', rfl, hx'⟩ := forall2_get hf j _ (List.getElem?_eq_getElem hjlt)
    obtain rfl := Option.some.inj (hmb'.symm.trans hj)
    obtain ⟨c, hc', t, ht, hall⟩ := hprod _ (List.getElem_mem hilt) _ (List.getElem_mem hjlt)
    obtain ⟨n, hn⟩ := List.mem_iff_getElem?.1 hc'
    obtain ⟨mc, hmc, U, u, ho'', rfl, hx''⟩ := forall2_get hf n c hn
    refine List.mem_map.2 ⟨_, List.mem_of_getElem? hmc, ?_⟩
    rw [block_mul, hc]
    have h1 : ∀ x, U *ᵥ x + u = (W * V) *ᵥ x + (W *ᵥ v + w + t) := by
      intro x
      have := hall x (W *ᵥ (V *ᵥ x + v) + w) (by rw [hx', Option.bind_some, hx])
      rw [hx'', Option.some.injEq] at this
      rw [this, Matrix.mulVec_add, Matrix.mulVec_mulVec]
      abel
    have h0 : u = W *ᵥ v + w + t := by simpa using h1 0
    refine ⟨?_, by rw [h0, add_sub_cancel_left]; exact ht⟩
    apply Matrix.ext_of_mulVec_single
    intro i
    have := h1 (Pi.single i 1)
    rwa [h0, add_left_inj] at this)
  exact ⟨_, by unfold productTable; rw [hms]; simp only; rw [hr]; simp only; rw [hi]⟩

/-! ### Conjugacy classes of point groups -/

open Classical in
/-- the bijection of space behind an element. -/
noncomputable def toEquiv (e : PGElem K d) : Equiv.Perm (Fin d → K) :=
  if h : Function.Bijective fun x => (e.act x).getD 0 then Equiv.ofBijective _ h else 1

theorem toEquiv_apply (e : PGElem K d) (he : Good e) (x : Fin d → K) : e.act x = some (toEquiv e x) := by
  have hb : Function.Bijective fun x => (e.act x).getD 0 := by
    obtain ⟨W, w, ho, _, hx⟩ := good_rep e he
    have h2 : W * Wᵀ = 1 := mul_eq_one_comm.1 ho
    constructor
    · intro x y h
      simp only [hx, Option.getD_some, add_left_inj] at h
      have := congrArg (fun v => Wᵀ *ᵥ v) h
      simpa only [Matrix.mulVec_mulVec, ho, Matrix.one_mulVec] using this
    · intro y
      refine ⟨Wᵀ *ᵥ (y - w), ?_⟩
      simp only [hx, Option.getD_some]
      rw [Matrix.mulVec_mulVec, h2, Matrix.one_mulVec, sub_add_cancel]
  unfold toEquiv
  rw [dif_pos hb, Equiv.ofBijective_apply]
  obtain ⟨W, w, _, _, hx⟩ := good_rep e he
  rw [hx]
  rfl

/-- without a unit cell the product table is that of the group of the maps of the elements: the theorems on conjugacy classes (C41)
    apply to it. -/
theorem C42_conjugacy (hc : Faithful canon (⊥ : AddSubgroup (Fin d → K))) (es : List (PGElem K d)) (hes : ∀ e ∈ es, Good e)
    (hnd : (es.map toEquiv).Nodup) (T : List (List Nat)) (h : productTable canon es = .ok T) :
    Verif.Grp.IsTable (es.map toEquiv) T := by
  obtain ⟨h1, h2⟩ := C42_product_table hc es hes T h
  refine ⟨hnd, by rw [h1, List.length_map], ?_⟩
  intro i j g k hg hk
  rw [List.getElem?_map, Option.map_eq_some_iff] at hg hk
  obtain ⟨a, ha, rfl⟩ := hg
  obtain ⟨b, hb, rfl⟩ := hk
  obtain ⟨row, n, u, t, r1, r2, r3, r4, r5, r6⟩ := h2 i j a b ha hb
  refine ⟨row, n, r1, r3, ?_⟩
  rw [List.getElem?_map, r4, Option.map_some]
  congr 1
  rw [AddSubgroup.mem_bot] at r5
  subst r5
  ext x : 1
  have hu := hes u (List.mem_of_getElem? r4)
  have ga := hes a (List.mem_of_getElem? ha)
  have gb := hes b (List.mem_of_getElem? hb)
  have := r6 x ((toEquiv a)⁻¹ (toEquiv b x)) (by
    rw [toEquiv_apply a ga, toEquiv_apply b gb, ← Equiv.Perm.mul_apply, mul_inv_cancel, Equiv.Perm.one_apply])
  rw [toEquiv_apply u hu, add_zero, Option.some.injEq] at this
  exact this

end

end

/-! ## Examples -/

/-- the identity and the reflection of the line, with the matrices themselves as canonical forms. -/
example : Faithful (K := ℚ) (d := 1) (fun m => m) ⊥ := by
  intro W w V v
  rw [AddSubgroup.mem_bot, sub_eq_zero]
  exact ⟨block_inj, fun h => by rw [h.1, h.2]⟩

/-- canonical forms with the unit cell [0, 1): translations differing by an integer are identified. -/
example : Faithful (K := ℚ) (d := 1) (fun m => (m.toBlocks₁₁, Int.fract (m.toBlocks₁₂ 0 ())))
    (AddSubgroup.closure {fun _ => 1}) := by
  intro W w V v
  simp only [block, Matrix.toBlocks_fromBlocks₁₁, Matrix.toBlocks_fromBlocks₁₂, Prod.mk.injEq, Matrix.of_apply]
  rw [Int.fract_eq_fract, AddSubgroup.mem_closure_singleton]
  refine and_congr_right fun _ => ⟨?_, ?_⟩
  · rintro ⟨z, hz⟩
    exact ⟨z, by ext i; rw [Subsingleton.elim i 0]; simp [hz]⟩
  · rintro ⟨z, hz⟩
    exact ⟨z, by have := congrFun hz 0; simpa using this.symm⟩

/-- a glide of the line, `x ↦ -x + 1/2`. -/
example : ∃ p : PGSym ℚ 1, mkPG !![(-1 : ℚ)] (some ![1/2]) = .ok p ∧ p.act ![1] = ![-1/2] := by
  obtain ⟨p, h1, _, _, h2⟩ := (C42_constructor !![(-1 : ℚ)] (some ![1/2])).1 (by
    intro i j; fin_cases i; fin_cases j; simp)
  refine ⟨p, h1, ?_⟩
  rw [h2]
  ext i
  fin_cases i
  simp [affineMap]
  norm_num

/-! ## C43 -/

section
variable {K : Type} [Field K]

/-- the little group consists of the elements which map the wave vector to the same vector as the first element, the identity. -/
theorem C43_index {α : Type} [DecidableEq α] (star : List α) (k : α) (h0 : star[0]? = some k) :
    (littleGroupIndex star).Pairwise (· < ·) ∧ ∀ (i : Nat), i ∈ littleGroupIndex star ↔ star[i]? = some k := by
  cases star with
  | nil => simp at h0
  | cons s r =>
    simp only [List.getElem?_cons_zero, Option.some.injEq] at h0
    subst h0
    refine ⟨List.Pairwise.filter _ List.pairwise_lt_range, ?_⟩
    intro i
    simp only [littleGroupIndex, List.mem_filter, List.mem_range, decide_eq_true_eq, and_iff_right_iff_imp]
    intro h
    exact (List.getElem?_eq_some_iff.1 h).1

example := C43_index ["k", "q", "k"] "k" rfl

/-- the full statement: row `a` of the result has the character of the element at position `idx[b]`, `CT[a][b]`, at `idx[b]`,
    and zero outside the little group. -/
def Embeds (n : Nat) (idx : List Nat) (CT : List (List (Cx K))) (R : List (List (Cx K))) : Prop :=
  R.length = CT.length ∧ ∀ (a : Nat) row, CT[a]? = some row → ∃ r, R[a]? = some r ∧ r.length = n
    ∧ (∀ (b j : Nat) z, idx[b]? = some j → row[b]? = some z → r[j]? = some z) ∧ ∀ (j : Nat), j < n → j ∉ idx → r[j]? = some (0, 0)

/-- the entries of a real array as complex numbers. -/
def asComplex (R : List (List K)) : List (List (Cx K)) := R.map fun r => r.map fun x => (x, 0)

/-- for real character tables the characters are embedded as stated. -/
theorem C43_embeds_partial (n : Nat) (idx : List Nat) (CT : List (List (Cx K))) (hidx : idx.Nodup) (hlt : ∀ j ∈ idx, j < n)
    (hreal : ∀ row ∈ CT, ∀ z ∈ row, z.2 = 0) : Embeds n idx CT (asComplex (littleGroupIrreps n idx CT false)) := by
  refine ⟨by simp [asComplex, littleGroupIrreps], ?_⟩
  intro a row ha
  refine ⟨(embedRow n idx row).map fun x => (x, 0), ?_, by simp [embedRow], ?_, ?_⟩
  · simp [asComplex, littleGroupIrreps, ha]
  · intro b j z hb hz
    have hj : j ∈ idx := List.mem_of_getElem? hb
    obtain ⟨hbl, hbe⟩ := List.getElem?_eq_some_iff.1 hb
    have hix : idx.idxOf j = b := by rw [← hbe]; exact List.Nodup.idxOf_getElem hidx b hbl
    rw [List.getElem?_map, embedRow, List.getElem?_map, List.getElem?_range (hlt j hj)]
    simp only [Option.map_some, if_pos hj, hix]
    rw [List.getD_eq_getElem?_getD, List.getElem?_map, hz]
    have := hreal row (List.mem_of_getElem? ha) z (List.mem_of_getElem? hz)
    simp only [Option.map_some, Option.getD_some, castReal, Option.some.injEq]
    rw [← this]
  · intro j hj hn
    rw [List.getElem?_map, embedRow, List.getElem?_map, List.getElem?_range hj]
    simp [hn]

example := C43_embeds_partial (K := ℚ) 4 [0, 2] [[(1, 0), (1, 0)], [(1, 0), (-1, 0)]] (by decide) (by decide) (by decide +kernel)

/-- with `divide` every entry is divided by the order of the little group. -/
theorem C43_divide (n : Nat) (idx : List Nat) (CT : List (List (Cx K))) :
    littleGroupIrreps n idx CT true = (littleGroupIrreps n idx CT false).map fun r => r.map fun x => x / (idx.length : K) := by
  simp [littleGroupIrreps]

/-- for complex character tables they are not: the imaginary parts are dropped.  The witness is the character table of the
    fourfold rotations, with the characters 1, i, -1, -i. -/
theorem C43_complex_refuted :
    ¬ ∀ (n : Nat) (idx : List Nat) (CT : List (List (Cx ℚ))), idx.Nodup → (∀ j ∈ idx, j < n) →
      Embeds n idx CT (asComplex (littleGroupIrreps n idx CT false)) := by
  intro h
  obtain ⟨_, h2⟩ := h 4 [0, 1, 2, 3]
    [[(1, 0), (1, 0), (1, 0), (1, 0)], [(1, 0), (-1, 0), (1, 0), (-1, 0)], [(1, 0), (0, 1), (-1, 0), (0, -1)],
      [(1, 0), (0, -1), (-1, 0), (0, 1)]] (by decide) (by decide)
  obtain ⟨r, h3, _, h4, _⟩ := h2 2 _ rfl
  have h5 := h4 1 1 (0, 1) rfl rfl
  have h6 : r = [((1 : ℚ), (0 : ℚ)), (0, 0), (-1, 0), (0, 0)] := by
    have h7 : (asComplex (littleGroupIrreps 4 [0, 1, 2, 3]
      [[((1 : ℚ), (0 : ℚ)), (1, 0), (1, 0), (1, 0)], [(1, 0), (-1, 0), (1, 0), (-1, 0)], [(1, 0), (0, 1), (-1, 0), (0, -1)],
        [(1, 0), (0, -1), (-1, 0), (0, 1)]] false))[2]? = some [((1 : ℚ), (0 : ℚ)), (0, 0), (-1, 0), (0, 0)] := by decide +kernel
    rw [h7] at h3
    exact (Option.some.inj h3).symm
  rw [h6] at h5
  simp at h5

/-- the reflection and the identity within a group of four elements. -/
example : littleGroupIndex [(0 : Nat), 1, 0, 1] = [0, 2]
    ∧ littleGroupIrreps (K := ℚ) 4 [0, 2] [[(1, 0), (1, 0)], [(1, 0), (-1, 0)]] false = [[1, 0, 1, 0], [1, 0, -1, 0]] := by
  decide +kernel

/-! cases for the theorems of C42: the line with the reflection `x ↦ -x + 1/2` -/

section
open Classical

theorem exists_glide : ∃ p : PGSym ℚ 1, mkPG !![(-1 : ℚ)] (some ![1/2]) = .ok p ∧ ∀ x, p.act x = affineMap !![(-1 : ℚ)] ![1/2] x := by
  obtain ⟨p, h1, _, _, h2⟩ := (C42_constructor !![(-1 : ℚ)] (some ![1/2])).1 (by
    intro i j; fin_cases i; fin_cases j; simp)
  exact ⟨p, h1, h2⟩

/-- the reflection. -/
noncomputable def glide : PGSym ℚ 1 := exists_glide.choose

theorem glide_constructed : Constructed glide := ⟨_, _, exists_glide.choose_spec.1⟩

theorem glide_act (x : Fin 1 → ℚ) : glide.act x = fun _ => 1 / 2 - x 0 := by
  rw [glide, exists_glide.choose_spec.2]
  ext i
  fin_cases i
  simp [affineMap]
  ring

theorem glide_glide (x : Fin 1 → ℚ) : glide.act (glide.act x) = x := by
  rw [glide_act, glide_act]
  ext i
  fin_cases i
  simp

theorem faithful_eq : Faithful (K := ℚ) (d := 1) (fun m => m) ⊥ := by
  intro W w V v
  rw [AddSubgroup.mem_bot, sub_eq_zero]
  exact ⟨block_inj, fun h => by rw [h.1, h.2]⟩

theorem glide_good : ∀ e ∈ [PGElem.id, .sym glide], Good e := by
  intro e he
  simp only [List.mem_cons, List.not_mem_nil, or_false] at he
  rcases he with rfl | rfl
  · trivial
  · exact glide_constructed

theorem glide_inv : ∀ e ∈ [PGElem.id, .sym glide], ∃ e' ∈ [PGElem.id, .sym glide], ∃ t ∈ (⊥ : AddSubgroup (Fin 1 → ℚ)),
    ∀ x, (e.act x).bind e'.act = some (x + t) := by
  intro e he
  simp only [List.mem_cons, List.not_mem_nil, or_false] at he
  rcases he with rfl | rfl
  · exact ⟨.id, by simp, 0, AddSubgroup.zero_mem _, fun x => by simp [PGElem.act]⟩
  · exact ⟨.sym glide, by simp, 0, AddSubgroup.zero_mem _, fun x => by simp [PGElem.act, glide_glide]⟩

theorem glide_prod : ∀ a ∈ [PGElem.id, .sym glide], ∀ b ∈ [PGElem.id, .sym glide], ∃ c ∈ [PGElem.id, .sym glide], ∃ t ∈ (⊥ : AddSubgroup (Fin 1 → ℚ)),
    ∀ x y, (b.act x).bind a.act = some y → c.act x = some (y + t) := by
  intro a ha b hb
  simp only [List.mem_cons, List.not_mem_nil, or_false] at ha hb
  rcases ha with rfl | rfl <;> rcases hb with rfl | rfl
  · exact ⟨.id, by simp, 0, AddSubgroup.zero_mem _, fun x y h => by simpa [PGElem.act] using h⟩
  · exact ⟨.sym glide, by simp, 0, AddSubgroup.zero_mem _, fun x y h => by simpa [PGElem.act] using h⟩
  · exact ⟨.sym glide, by simp, 0, AddSubgroup.zero_mem _, fun x y h => by simpa [PGElem.act] using h⟩
  · exact ⟨.id, by simp, 0, AddSubgroup.zero_mem _, fun x y h => by simpa [PGElem.act, glide_glide] using h⟩

example := C42_product glide glide glide_constructed glide_constructed

example : ∃ pq l m : PGSym ℚ 1, glide.prod glide = .ok pq ∧ pq.prod glide = .ok l ∧ glide.prod pq = .ok m ∧ l = m := by
  obtain ⟨pq, h1, hc, _⟩ := C42_product glide glide glide_constructed glide_constructed
  obtain ⟨l, h2, _⟩ := C42_product pq glide hc glide_constructed
  obtain ⟨m, h3, _⟩ := C42_product glide pq glide_constructed hc
  exact ⟨pq, l, m, h1, h2, h3, C42_assoc glide glide glide pq pq l m glide_constructed glide_constructed glide_constructed h1 h1 h2 h3⟩

example := C42_preimage glide glide_constructed ![1]

example := C42_k_action glide glide_constructed ![2] ![1] ![3]

example := C42_change_origin glide glide_constructed ![1]

example : ∃ pq p' r r' : PGSym ℚ 1, glide.prod glide = .ok pq ∧ glide.changeOrigin ![1] = .ok p' ∧ pq.changeOrigin ![1] = .ok r ∧ p'.prod p' = .ok r' := by
  obtain ⟨pq, h1, hc, _⟩ := C42_product glide glide glide_constructed glide_constructed
  obtain ⟨p', h2, hc', _⟩ := C42_change_origin glide glide_constructed ![1]
  obtain ⟨r, h3, _⟩ := C42_change_origin pq hc ![1]
  obtain ⟨r', h4, _⟩ := C42_product p' p' hc' hc'
  have := C42_change_origin_product glide glide pq p' p' r r' glide_constructed glide_constructed ![1] h1 h2 h2 h3 h4
  exact ⟨pq, p', r, r', h1, h2, h3, h4⟩

example := C42_elements (.sym glide) .id glide_constructed trivial

example := C42_group_change_origin (.sym glide) glide_constructed ![1]

example := (C42_inverse_exists faithful_eq [.id, .sym glide] glide_good).1 glide_inv

example : ∃ inv, inverse (K := ℚ) (d := 1) (fun m => m) [.id, .sym glide] = .ok inv := by
  obtain ⟨inv, h⟩ := (C42_inverse_exists faithful_eq [.id, .sym glide] glide_good).1 glide_inv
  have := C42_inverse faithful_eq [.id, .sym glide] glide_good inv h
  exact ⟨inv, h⟩

example : ∃ T, productTable (K := ℚ) (d := 1) (fun m => m) [.id, .sym glide] = .ok T := by
  obtain ⟨T, h⟩ := C42_closed faithful_eq [.id, .sym glide] glide_good glide_inv glide_prod
  have := C42_product_table faithful_eq [.id, .sym glide] glide_good T h
  exact ⟨T, h⟩

example := C42_unclosed faithful_eq [.sym glide] (fun e he => glide_good e (List.mem_cons_of_mem _ he)) ⟨.sym glide, by simp, .sym glide, by simp, by
  intro c hc t ht
  rw [AddSubgroup.mem_bot] at ht
  subst ht
  rw [List.mem_singleton] at hc
  subst hc
  refine ⟨![0], ![0], by simp [PGElem.act, glide_glide], ?_⟩
  simp only [PGElem.act, glide_act, ne_eq, Option.some.injEq]
  intro h
  have := congrFun h 0
  norm_num at this⟩

example : ∃ T, productTable (K := ℚ) (d := 1) (fun m => m) [.id, .sym glide] = .ok T := by
  obtain ⟨T, h⟩ := C42_closed faithful_eq [.id, .sym glide] glide_good glide_inv glide_prod
  have := C42_conjugacy faithful_eq [.id, .sym glide] glide_good (by
    simp only [List.map_cons, List.map_nil, List.nodup_cons, List.mem_singleton, List.not_mem_nil, not_false_eq_true, List.nodup_nil, and_true]
    intro h
    have h1 := toEquiv_apply PGElem.id (glide_good _ (by simp)) ![0]
    have h2 := toEquiv_apply (.sym glide) (glide_good _ (by simp)) ![0]
    rw [h, ← h2] at h1
    simp only [PGElem.act, glide_act, Option.some.injEq] at h1
    have := congrFun h1 0
    norm_num at this) T h
  exact ⟨T, h⟩

end

end

end Verif.PGrp
