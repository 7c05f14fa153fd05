import Verif.Model.GroupClasses
import Verif.Spec.Shift
import Verif.Props.SpaceGroup
import Mathlib.Algebra.Group.Equiv.Basic
import Mathlib.Tactic.Ring
import Mathlib.Tactic.Linarith

/-! C192: groups of the base class, translations with their labels, and the default point group of a lattice.  C193: deviations. -/

set_option linter.unusedVariables false

namespace Verif.GrpCls
open Verif.Hilbert (Err)

/-! ## `FiniteGroup` -/

section
variable {α κ : Type} [DecidableEq κ] {G : Type} [Group G]

/-- the elements stand for elements of a group: products are products, and canonical forms are equal exactly when the group elements are. -/
structure Stands (mul : α → α → α) (canon : α → κ) (one : α) (ρ : α → G) : Prop where
  mul : ∀ a b, ρ (mul a b) = ρ a * ρ b
  one : ρ one = 1
  canon : ∀ a b, canon a = canon b ↔ ρ a = ρ b

theorem inverseRow_none (p : Nat → Bool) (n : Nat) (h : ∀ j < n, p j = false) : inverseRow p n = 0 := by
  induction n with
  | zero => rfl
  | succ n ih =>
    unfold inverseRow
    rw [if_neg (by rw [h n (by omega)]; simp)]
    exact ih fun j hj => h j (by omega)

theorem inverseRow_some (p : Nat → Bool) (n j : Nat) (hj : j < n) (h : p j = true) :
    inverseRow p n < n ∧ p (inverseRow p n) = true ∧ ∀ k < n, p k = true → k ≤ inverseRow p n := by
  induction n with
  | zero => omega
  | succ n ih =>
    unfold inverseRow
    by_cases hn : p n = true
    · rw [if_pos hn]
      exact ⟨by omega, hn, fun k hk _ => by omega⟩
    · rw [if_neg hn]
      have hjn : j < n := by
        rcases Nat.lt_succ_iff_lt_or_eq.1 hj with h1 | h1
        · exact h1
        · subst h1; exact absurd h hn
      obtain ⟨h1, h2, h3⟩ := ih hjn
      refine ⟨by omega, h2, fun k hk hpk => ?_⟩
      rcases Nat.lt_succ_iff_lt_or_eq.1 hk with h4 | h4
      · exact h3 k h4 hpk
      · subst h4; exact absurd hpk hn

/-- **C192.** `inverse` of a collection which contains the inverse of an element: the index is that of an element which is its inverse, the last one
    if there are several. -/
theorem C192_inverse {mul : α → α → α} {canon : α → κ} {one : α} {ρ : α → G} (hs : Stands mul canon one ρ) (es : List α) (i : Nat) (a : α)
    (hi : es[i]? = some a) (hinv : ∃ b ∈ es, ρ b = (ρ a)⁻¹) :
    ∃ k b, (inverse mul canon one es)[i]? = some k ∧ es[k]? = some b ∧ ρ b = (ρ a)⁻¹ ∧ ∀ (j : Nat) (c : α), es[j]? = some c → ρ c = (ρ a)⁻¹ → j ≤ k := by
  obtain ⟨b, hb, hbi⟩ := hinv
  obtain ⟨j, hj, rfl⟩ := List.getElem_of_mem hb
  let p : Nat → Bool := fun j => match es[j]? with | none => false | some b => decide (canon (mul a b) = canon one)
  have hp : ∀ (k : Nat) (c : α), es[k]? = some c → (p k = true ↔ ρ c = (ρ a)⁻¹) := by
    intro k c hc
    have : p k = decide (canon (mul a c) = canon one) := by simp only [p, hc]
    rw [this, decide_eq_true_iff, hs.canon, hs.mul, hs.one, mul_eq_one_iff_eq_inv']
  have hjs : es[j]? = some es[j] := List.getElem?_eq_getElem hj
  obtain ⟨h1, h2, h3⟩ := inverseRow_some p es.length j hj ((hp j _ hjs).2 hbi)
  refine ⟨inverseRow p es.length, es[inverseRow p es.length], ?_, List.getElem?_eq_getElem h1, ?_, fun k c hc hk => ?_⟩
  · unfold inverse
    rw [List.getElem?_map, hi]; rfl
  · exact (hp _ _ (List.getElem?_eq_getElem h1)).1 h2
  · have hk' : k < es.length := by
      by_contra hcon
      rw [List.getElem?_eq_none (by omega)] at hc; simp at hc
    exact h3 k hk' ((hp k c hc).2 hk)

theorem lookup_ok {canon : α → κ} (es : List α) (k : κ) (c : α) (hc : c ∈ es) (hk : canon c = k) :
    ∃ i b, lookup canon es k = .ok i ∧ es[i]? = some b ∧ canon b = k := by
  obtain ⟨j, hj, rfl⟩ := List.getElem_of_mem hc
  let p : Nat → Bool := fun i => match es[i]? with | none => false | some b => decide (canon b = k)
  have hl : lookup canon es k = match (List.range es.length).reverse.find? p with | none => .error .keyError | some i => .ok i := rfl
  have hpj : p j = true := by simp only [p, List.getElem?_eq_getElem hj]; simpa using hk
  cases hf : (List.range es.length).reverse.find? p with
  | none =>
    rw [List.find?_eq_none] at hf
    exact absurd hpj (hf j (by simpa using hj))
  | some i =>
    have h1 := List.find?_some hf
    have h2 : i < es.length := by simpa using List.mem_of_find?_eq_some hf
    refine ⟨i, es[i], by rw [hl, hf], List.getElem?_eq_getElem h2, ?_⟩
    simp only [p, List.getElem?_eq_getElem h2] at h1
    simpa using h1

theorem tableRow_ok {mul : α → α → α} {canon : α → κ} {one : α} {ρ : α → G} (hs : Stands mul canon one ρ) (es : List α) (a : α) (bs : List α)
    (h : ∀ b ∈ bs, ∃ c ∈ es, ρ c = ρ a * ρ b) :
    ∃ r, tableRow mul canon es a bs = .ok r ∧ r.length = bs.length ∧
      ∀ (j : Nat) (b : α), bs[j]? = some b → ∃ k c, r[j]? = some k ∧ es[k]? = some c ∧ ρ c = ρ a * ρ b := by
  induction bs with
  | nil => exact ⟨[], rfl, rfl, fun j b hb => by simp at hb⟩
  | cons b bs ih =>
    obtain ⟨r, h1, h2, h3⟩ := ih fun x hx => h x (List.mem_cons_of_mem _ hx)
    obtain ⟨c, hc, hcb⟩ := h b List.mem_cons_self
    obtain ⟨k, c', hk, hk', hk''⟩ := lookup_ok (canon := canon) es (canon (mul a b)) c hc (by rw [hs.canon, hs.mul, hcb])
    refine ⟨k :: r, by simp only [tableRow, hk, h1], by simp [h2], fun j x hx => ?_⟩
    cases j with
    | zero =>
      simp only [List.getElem?_cons_zero, Option.some.injEq] at hx
      subst hx
      exact ⟨k, c', by simp, hk', by rw [← hs.mul]; exact (hs.canon _ _).1 hk''⟩
    | succ j =>
      simp only [List.getElem?_cons_succ] at hx ⊢
      exact h3 j x hx

theorem tableRows_ok {mul : α → α → α} {canon : α → κ} {one : α} {ρ : α → G} (hs : Stands mul canon one ρ) (es as : List α)
    (h : ∀ a ∈ as, ∀ b ∈ es, ∃ c ∈ es, ρ c = ρ a * ρ b) :
    ∃ T, tableRows mul canon es as = .ok T ∧ T.length = as.length ∧
      ∀ (i j : Nat) (a b : α), as[i]? = some a → es[j]? = some b → ∃ r k c, T[i]? = some r ∧ r[j]? = some k ∧ es[k]? = some c ∧ ρ c = ρ a * ρ b := by
  induction as with
  | nil => exact ⟨[], rfl, rfl, fun i j a b ha => by simp at ha⟩
  | cons a as ih =>
    obtain ⟨T, h1, h2, h3⟩ := ih fun x hx => h x (List.mem_cons_of_mem _ hx)
    obtain ⟨r, r1, r2, r3⟩ := tableRow_ok hs es a es (h a List.mem_cons_self)
    refine ⟨r :: T, by simp only [tableRows, r1, h1], by simp [h2], fun i j x y hx hy => ?_⟩
    cases i with
    | zero =>
      simp only [List.getElem?_cons_zero, Option.some.injEq] at hx
      subst hx
      obtain ⟨k, c, h4⟩ := r3 j y hy
      exact ⟨r, k, c, by simp, h4⟩
    | succ i =>
      simp only [List.getElem?_cons_succ] at hx ⊢
      exact h3 i j x y hx hy

theorem gather_all (es : List α) (idx : List Nat) (h : ∀ k ∈ idx, k < es.length) :
    ∃ as, gather .array es idx = .ok as ∧ as.length = idx.length ∧ ∀ (i k : Nat), idx[i]? = some k → as[i]? = es[k]? := by
  refine ⟨_, rfl, ?_⟩
  induction idx with
  | nil => exact ⟨rfl, fun i k hk => by simp at hk⟩
  | cons k idx ih =>
    obtain ⟨h1, h2⟩ := ih fun x hx => h x (List.mem_cons_of_mem _ hx)
    have hk := h k List.mem_cons_self
    rw [List.filterMap_cons_some (List.getElem?_eq_getElem hk)]
    refine ⟨by simp [h1], fun i m hm => ?_⟩
    cases i with
    | zero =>
      simp only [List.getElem?_cons_zero, Option.some.injEq] at hm ⊢
      subst hm; rw [List.getElem?_eq_getElem hk]
    | succ i =>
      simp only [List.getElem?_cons_succ] at hm ⊢
      exact h2 i m hm

/-- **C193, the part that holds.** `product_table` of a collection kept in an array of objects which is closed under products and inverses: entry
    `(g, h)` is the index of `g⁻¹ h`. -/
theorem C193_product_table_partial {mul : α → α → α} {canon : α → κ} {one : α} {ρ : α → G} (hs : Stands mul canon one ρ) (es : List α)
    (hinv : ∀ a ∈ es, ∃ b ∈ es, ρ b = (ρ a)⁻¹) (hmul : ∀ a ∈ es, ∀ b ∈ es, ∃ c ∈ es, ρ c = ρ a * ρ b) :
    ∃ T, productTable .array mul canon one es = .ok T ∧ T.length = es.length ∧
      ∀ (i j : Nat) (a b : α), es[i]? = some a → es[j]? = some b → ∃ r k c, T[i]? = some r ∧ r[j]? = some k ∧ es[k]? = some c ∧ ρ c = (ρ a)⁻¹ * ρ b := by
  have hidx : ∀ k ∈ inverse mul canon one es, k < es.length := by
    intro k hk
    obtain ⟨i, hi, rfl⟩ := List.getElem_of_mem hk
    have hi' : i < es.length := by simpa [inverse] using hi
    obtain ⟨k', b, h1, h2, _⟩ := C192_inverse hs es i es[i] (List.getElem?_eq_getElem hi') (hinv _ (List.getElem_mem hi'))
    rw [List.getElem?_eq_getElem hi, Option.some.injEq] at h1
    rw [h1]
    by_contra hcon
    rw [List.getElem?_eq_none (by omega)] at h2; simp at h2
  obtain ⟨as, g1, g2, g3⟩ := gather_all es _ hidx
  have hlen : (inverse mul canon one es).length = es.length := by simp [inverse]
  have hmem : ∀ a ∈ as, a ∈ es := by
    intro a ha
    obtain ⟨i, hi, rfl⟩ := List.getElem_of_mem ha
    have h1 := g3 i _ (List.getElem?_eq_getElem (by omega))
    rw [List.getElem?_eq_getElem hi] at h1
    exact List.mem_of_getElem? h1.symm
  obtain ⟨T, t1, t2, t3⟩ := tableRows_ok hs es as fun a ha b hb => hmul a (hmem a ha) b hb
  refine ⟨T, by simp only [productTable, g1, t1], by omega, fun i j a b ha hb => ?_⟩
  obtain ⟨k, a', k1, k2, k3, _⟩ := C192_inverse hs es i a ha (hinv a (List.mem_of_getElem? ha))
  have h2 := g3 i k k1
  rw [k2] at h2
  obtain ⟨r, m, c, c1, c2, c3, c4⟩ := t3 i j a' b h2 hb
  exact ⟨r, m, c, c1, c2, c3, by rw [c4, k3]⟩

/-- **C193, refuted.** a group of the base class keeps its elements in a list, and then `product_table` — and with it the conjugacy classes and the
    character table — is a TypeError whatever the elements. -/
theorem C193_product_table_refuted (mul : α → α → α) (canon : α → κ) (one : α) (es : List α) :
    productTable .list mul canon one es = .error .typeError := rfl

/-- **C193, refuted.** an element without an inverse in the collection is silently given the inverse number 0. -/
theorem C193_missing_inverse_refuted {mul : α → α → α} {canon : α → κ} {one : α} {ρ : α → G} (hs : Stands mul canon one ρ) (es : List α) (i : Nat) (a : α)
    (hi : es[i]? = some a) (hinv : ∀ b ∈ es, ρ b ≠ (ρ a)⁻¹) : (inverse mul canon one es)[i]? = some 0 := by
  unfold inverse
  rw [List.getElem?_map, hi, Option.map_some, inverseRow_none]
  intro j hj
  simp only [List.getElem?_eq_getElem hj, decide_eq_false_iff_not, hs.canon, hs.mul, hs.one, mul_eq_one_iff_eq_inv']
  exact hinv _ (List.getElem_mem hj)

/-- the numbers modulo 3, with two elements written twice. -/
example : Stands (α := Nat) (κ := Nat) (G := Multiplicative (ZMod 3)) (fun a b => a + b) (fun a => a % 3) 0 (fun a => Multiplicative.ofAdd (a : ZMod 3)) := by
  refine ⟨fun a b => by rw [← ofAdd_add]; push_cast; rfl, by simp, fun a b => ?_⟩
  rw [Multiplicative.ofAdd.injective.eq_iff, ZMod.natCast_eq_natCast_iff]
  rfl

example : inverse (fun a b => a + b) (fun a => a % 3) 0 [0, 1, 2, 4] = [0, 2, 3, 2] := by decide
example : productTable .array (fun a b => a + b) (fun a => a % 3) 0 [0, 1, 2] = .ok [[0, 1, 2], [2, 0, 1], [1, 2, 0]] := by decide
example : inverse (fun a b => a + b) (fun a => a % 3) 0 [0, 1] = [0, 0] := by decide

/-- **C192.** `(A @ B)(x)` lists, for every element of `A` and then every element of `B`, the action of the first on that of the second: it is
    `A` applied to every array of `B(x)`, element of `A` by element of `A`. -/
theorem C192_call {X : Type} (act : α → X → X) (mul : α → α → α) (hact : ∀ a b x, act (mul a b) x = act a (act b x)) (as bs : List α) (batch : List X) :
    (call act (prodElems mul as bs) batch).length = as.length * bs.length
    ∧ call act (prodElems mul as bs) batch = as.flatMap fun a => (call act bs batch).map fun ys => ys.map fun y => act a y := by
  constructor
  · unfold call prodElems
    rw [List.length_map]
    induction as with
    | nil => simp
    | cons a as ih => rw [List.flatMap_cons, List.length_append, ih, List.length_map, List.length_cons, Nat.succ_mul, Nat.add_comm]
  · unfold call prodElems
    induction as with
    | nil => simp
    | cons a as ih =>
      rw [List.flatMap_cons, List.map_append, ih, List.flatMap_cons]
      congr 1
      rw [List.map_map, List.map_map]
      refine List.map_congr_left fun b _ => ?_
      simp [Function.comp_def, hact]

/-- **C192.** the representation of a collection shows every element, or, beyond 31, the first and the last fifteen. -/
theorem C192_repr (es : List String) :
    (es.length ≤ 31 → reprLines es = es)
    ∧ (31 < es.length → (reprLines es).length = 31 ∧ (∀ i < 15, (reprLines es)[i]? = es[i]?) ∧ (reprLines es)[15]? = some "..."
      ∧ ∀ i < 15, (reprLines es)[16 + i]? = es[es.length - 15 + i]?) := by
  constructor
  · intro h; unfold reprLines; rw [if_neg (by omega)]
  · intro h
    unfold reprLines; rw [if_pos (by omega)]
    have h15 : (es.take 15).length = 15 := by rw [List.length_take]; omega
    refine ⟨by simp [List.length_take]; omega, fun i hi => ?_, ?_, fun i hi => ?_⟩
    · rw [List.append_assoc, List.getElem?_append_left (by omega), List.getElem?_take_of_lt hi]
    · rw [List.append_assoc, List.getElem?_append_right (by omega), h15]; rfl
    · rw [List.getElem?_append_right (by simp [h15]), List.getElem?_drop]
      congr 1
      simp [h15]

end

/-! ## Equality of point groups -/

section
variable {α U H : Type}

theorem eqElems_spec (eq : α → α → Bool) (as bs : List α) :
    (eqElems eq as bs = .ok true ↔ as.length ≤ bs.length ∧ ∀ (i : Nat) (a b : α), as[i]? = some a → bs[i]? = some b → eq a b = true)
    ∧ (eqElems eq as bs = .error .indexError ↔ bs.length < as.length ∧ ∀ (i : Nat) (a b : α), as[i]? = some a → bs[i]? = some b → eq a b = true) := by
  induction as generalizing bs with
  | nil => constructor <;> simp [eqElems]
  | cons a as ih =>
    cases bs with
    | nil => constructor <;> simp [eqElems]
    | cons b bs =>
      have split : ∀ n : Prop, (n ∧ ∀ (i : Nat) (x y : α), (a :: as)[i]? = some x → (b :: bs)[i]? = some y → eq x y = true)
          ↔ (eq a b = true ∧ n ∧ ∀ (i : Nat) (x y : α), as[i]? = some x → bs[i]? = some y → eq x y = true) := by
        intro n
        constructor
        · rintro ⟨h1, h2⟩
          exact ⟨h2 0 a b (by simp) (by simp), h1, fun i x y hx hy => h2 (i + 1) x y (by simpa using hx) (by simpa using hy)⟩
        · rintro ⟨h1, h2, h3⟩
          refine ⟨h2, fun i x y hx hy => ?_⟩
          cases i with
          | zero =>
            simp only [List.getElem?_cons_zero, Option.some.injEq] at hx hy
            subst hx; subst hy; exact h1
          | succ i => exact h3 i x y (by simpa using hx) (by simpa using hy)
      rw [split, split]
      simp only [List.length_cons, Nat.add_le_add_iff_right, Nat.add_lt_add_iff_right]
      by_cases h : eq a b = true
      · rw [eqElems, if_pos h]
        exact ⟨by rw [(ih bs).1]; simp [h], by rw [(ih bs).2]; simp [h]⟩
      · rw [eqElems, if_neg h]
        simp [h]

/-- **C193, the part that holds.** two point groups with unit cells and equally many elements: `==` says whether the cells are close and the elements
    equal one by one; equal groups then have equal hashes, if equal elements have. -/
theorem C193_eq_partial (eq : α → α → Bool) (close : U → U → Bool) (h : α → H) (mix : List H → H) (hh : ∀ a b, eq a b = true → h a = h b)
    (as bs : List α) (u v : U) (hlen : as.length = bs.length) :
    ∃ r, eqPG eq close (as, some u) (bs, some v) = .ok r
      ∧ (r = true ↔ close u v = true ∧ ∀ (i : Nat) (a b : α), as[i]? = some a → bs[i]? = some b → eq a b = true)
      ∧ (r = true → hashPG h mix (as, some u) = hashPG h mix (bs, some v)) := by
  by_cases hc : close u v = true
  · have hspec := eqElems_spec eq as bs
    cases hr : eqElems eq as bs with
    | error e =>
      have key : ∀ as bs : List α, as.length = bs.length → ∀ e, eqElems eq as bs ≠ .error e := by
        intro as
        induction as with
        | nil => intro bs _ e; simp [eqElems]
        | cons a as ih =>
          intro bs hl e
          cases bs with
          | nil => simp at hl
          | cons b bs =>
            rw [eqElems]
            split
            · exact ih bs (by simpa using hl) e
            · simp
      exact absurd hr (key as bs hlen e)
    | ok r =>
      refine ⟨r, by simp only [eqPG, hc, if_true, hr], ?_, fun hrt => ?_⟩
      · rw [hr] at hspec
        have h1 := hspec.1
        simp only [Except.ok.injEq, hlen, le_refl, true_and] at h1
        rw [h1]; simp [hc]
      · subst hrt
        have h2 := (hspec.1.1 hr).2
        unfold hashPG
        congr 1
        refine List.ext_getElem? fun i => ?_
        rw [List.getElem?_map, List.getElem?_map]
        by_cases hi : i < as.length
        · rw [List.getElem?_eq_getElem hi, List.getElem?_eq_getElem (hlen ▸ hi), Option.map_some, Option.map_some,
            hh _ _ (h2 i _ _ (List.getElem?_eq_getElem hi) (List.getElem?_eq_getElem (hlen ▸ hi)))]
        · rw [List.getElem?_eq_none (Nat.le_of_not_lt hi), List.getElem?_eq_none (by rw [← hlen]; exact Nat.le_of_not_lt hi)]
  · exact ⟨false, by simp only [eqPG, if_neg hc], by simp [hc], by simp⟩

/-- **C193, refuted.** groups without a unit cell (as `trivial_point_group` and the functions of `planar`, `axial` and `cubic` make them) cannot be
    compared at all: not even a group with itself. -/
theorem C193_eq_no_cell_refuted (eq : α → α → Bool) (close : U → U → Bool) (as bs : List α) :
    eqPG eq close (as, none) (bs, none) = .error .typeError := rfl

/-- **C193, refuted.** a group is equal to every group which begins with its elements, and the other way around the comparison is an IndexError. -/
theorem C193_eq_prefix_refuted (eq : α → α → Bool) (hrefl : ∀ a, eq a a = true) (close : U → U → Bool) (u : U) (hu : close u u = true) (as bs : List α)
    (hbs : bs ≠ []) :
    eqPG eq close (as, some u) (as ++ bs, some u) = .ok true ∧ eqPG eq close (as ++ bs, some u) (as, some u) = .error .indexError := by
  have hlen : 0 < bs.length := by cases bs with | nil => exact absurd rfl hbs | cons b bs => simp
  have hall : ∀ (i : Nat) (a b : α), as[i]? = some a → (as ++ bs)[i]? = some b → a = b := by
    intro i a b ha hb
    have hi : i < as.length := by
      by_contra hcon
      rw [List.getElem?_eq_none (by omega)] at ha; simp at ha
    rw [List.getElem?_append_left hi, ha] at hb
    simpa using hb
  simp only [eqPG, hu, if_true]
  refine ⟨(eqElems_spec eq _ _).1.2 ⟨by simp, fun i a b ha hb => ?_⟩, (eqElems_spec eq _ _).2.2 ⟨by simp; omega, fun i a b ha hb => ?_⟩⟩
  · rw [hall i a b ha hb]; exact hrefl _
  · rw [← hall i b a hb ha]; exact hrefl _

/-- such equal groups have different hashes when the hash tells their lengths apart. -/
theorem C193_eq_hash_refuted (h : Nat → H) (mix : List H → H) (hmix : mix [h 1] ≠ mix [h 1, h 2]) :
    eqPG (fun a b : Nat => a == b) (fun u v : Nat => u == v) ([1], some 0) ([1, 2], some 0) = .ok true
    ∧ hashPG h mix ([1], some 0) ≠ hashPG h mix ([1, 2], some 0) := ⟨by decide, hmix⟩

example : eqPG (fun a b : Nat => a == b) (fun u v : Nat => u == v) ([1, 2], some 0) ([1, 2], some 0) = .ok true := by decide
example : eqPG (fun a b : Nat => a == b) (fun u v : Nat => u == v) ([1, 2], some 0) ([1, 3], some 0) = .ok false := by decide

end

/-! ## Translations -/

open ShiftSpec

theorem cellFrom_lt (shape : List Nat) (hpos : ∀ L ∈ shape, 0 < L) (v : List Int) (c : Nat) (hc : c < shape.prod) : cellFrom shape v c < shape.prod := by
  induction shape generalizing v c with
  | nil => cases v <;> simpa [cellFrom] using hc
  | cons L Ls ih =>
    cases v with
    | nil => simpa [cellFrom] using hc
    | cons x vs =>
      have hP := Grp.prod_pos Ls fun M hM => hpos M (by simp [hM])
      have hL := hpos L (by simp)
      have h1 := ih (fun M hM => hpos M (by simp [hM])) vs (c % Ls.prod) (Nat.mod_lt _ hP)
      have h2 : ((((c / Ls.prod : Nat) : Int) - x) % (L : Int)).toNat < L := by
        have := Int.emod_lt_of_pos (((c / Ls.prod : Nat) : Int) - x) (show (0 : Int) < L by omega)
        have := Int.emod_nonneg (((c / Ls.prod : Nat) : Int) - x) (show (L : Int) ≠ 0 by omega)
        omega
      rw [List.prod_cons]
      unfold cellFrom
      calc _ < ((((c / Ls.prod : Nat) : Int) - x) % (L : Int)).toNat * Ls.prod + Ls.prod := by omega
        _ = (((((c / Ls.prod : Nat) : Int) - x) % (L : Int)).toNat + 1) * Ls.prod := by ring
        _ ≤ L * Ls.prod := Nat.mul_le_mul_right _ h2

/-- translations add up. -/
theorem cellFrom_add (shape : List Nat) (hpos : ∀ L ∈ shape, 0 < L) (v w : List Int) (hv : v.length = shape.length) (hw : w.length = shape.length) (c : Nat)
    (hc : c < shape.prod) : cellFrom shape w (cellFrom shape v c) = cellFrom shape (List.zipWith (· + ·) v w) c := by
  induction shape generalizing v w c with
  | nil =>
    rw [List.length_nil, List.length_eq_zero_iff] at hv hw
    subst hv; subst hw; rfl
  | cons L Ls ih =>
    cases v with
    | nil => simp at hv
    | cons x vs =>
      cases w with
      | nil => simp at hw
      | cons y ws =>
        have hpos' : ∀ M ∈ Ls, 0 < M := fun M hM => hpos M (by simp [hM])
        have hP := Grp.prod_pos Ls hpos'
        have hlt := cellFrom_lt Ls hpos' vs (c % Ls.prod) (Nat.mod_lt _ hP)
        have hi := ih hpos' vs ws (by simpa using hv) (by simpa using hw) (c % Ls.prod) (Nat.mod_lt _ hP)
        set q := ((((c / Ls.prod : Nat) : Int) - x) % (L : Int)).toNat with hq
        have hL := hpos L (by simp)
        have hq' : (q : Int) = (((c / Ls.prod : Nat) : Int) - x) % (L : Int) := by
          rw [hq, Int.toNat_of_nonneg (Int.emod_nonneg _ (by omega))]
        have e1 : (q * Ls.prod + cellFrom Ls vs (c % Ls.prod)) / Ls.prod = q := by
          rw [Nat.mul_comm, Nat.mul_add_div hP, Nat.div_eq_of_lt hlt, Nat.add_zero]
        have e2 : (q * Ls.prod + cellFrom Ls vs (c % Ls.prod)) % Ls.prod = cellFrom Ls vs (c % Ls.prod) := by
          rw [Nat.mul_comm, Nat.mul_add_mod, Nat.mod_eq_of_lt hlt]
        simp only [cellFrom, List.zipWith_cons_cons]
        rw [← hq, e1, e2, hi, hq', Int.emod_sub_emod]
        congr 4
        ring

/-- a vector of zeros moves nothing. -/
theorem cellFrom_zero (shape : List Nat) (hpos : ∀ L ∈ shape, 0 < L) (c : Nat) (hc : c < shape.prod) : cellFrom shape (List.replicate shape.length 0) c = c := by
  induction shape generalizing c with
  | nil => rfl
  | cons L Ls ih =>
    have hpos' : ∀ M ∈ Ls, 0 < M := fun M hM => hpos M (by simp [hM])
    have hP := Grp.prod_pos Ls hpos'
    rw [List.prod_cons] at hc
    simp only [List.length_cons, List.replicate_succ, cellFrom, sub_zero]
    rw [ih hpos' _ (Nat.mod_lt _ hP), ← Int.natCast_mod, Int.toNat_natCast, Nat.mod_eq_of_lt (Grp.div_lt L Ls.prod c hc)]
    exact Nat.div_add_mod' c Ls.prod

theorem cellBack_from (shape : List Nat) (hpos : ∀ L ∈ shape, 0 < L) (a c : Nat) (ha : a < shape.length) (hc : c < shape.prod) :
    Grp.cellBack shape a c = cellFrom shape (unitVec shape.length a) c := by
  induction shape generalizing a c with
  | nil => simp at ha
  | cons L Ls ih =>
    have hpos' : ∀ M ∈ Ls, 0 < M := fun M hM => hpos M (by simp [hM])
    have hP := Grp.prod_pos Ls hpos'
    have hL := hpos L (by simp)
    rw [List.prod_cons] at hc
    have hd := Grp.div_lt L Ls.prod c hc
    cases a with
    | zero =>
      simp only [Grp.cellBack, unitVec, List.length_cons, List.replicate_succ, List.set_cons_zero, cellFrom]
      rw [cellFrom_zero Ls hpos' _ (Nat.mod_lt _ hP)]
      congr 2
      have h1 : (((c / Ls.prod : Nat) : Int) - 1) % (L : Int) = (((c / Ls.prod + (L - 1) : Nat)) : Int) % (L : Int) := by
        rw [show (((c / Ls.prod + (L - 1) : Nat)) : Int) = (((c / Ls.prod : Nat) : Int) - 1) + L by omega, Int.add_emod_right]
      rw [h1, ← Int.natCast_mod, Int.toNat_natCast]
    | succ a =>
      simp only [Grp.cellBack, unitVec, List.length_cons, List.replicate_succ, List.set_cons_succ, cellFrom, sub_zero]
      rw [ih hpos' a _ (by simpa using ha) (Nat.mod_lt _ hP), ← Int.natCast_mod, Int.toNat_natCast, Nat.mod_eq_of_lt hd]
      rfl

/-- the vector of an element: zero for `Identity()`. -/
def Trans.vec (d : Nat) : Trans → List Int
  | .id => List.replicate d 0
  | .tr _ v => v

/-- the array of an element (`to_array`, where `Identity()` gives `arange`). -/
def Trans.arr (n : Nat) : Trans → List Int
  | .id => Grp.arange n
  | .tr p _ => p

/-- an element whose array translates the lattice by its vector. -/
def Labelled (shape : List Nat) (spc : Nat) (t : Trans) : Prop :=
  (t.vec shape.length).length = shape.length ∧ Translates shape spc (t.vec shape.length) (t.arr (shape.prod * spc))

theorem translates_id (shape : List Nat) (hpos : ∀ L ∈ shape, 0 < L) (spc : Nat) : Translates shape spc (List.replicate shape.length 0) (Grp.arange (shape.prod * spc)) := by
  unfold Translates Grp.arange
  refine List.map_congr_left fun x hx => ?_
  rw [List.mem_range] at hx
  have hc : x / spc < shape.prod := Grp.div_lt _ _ _ hx
  rw [cellFrom_zero shape hpos _ hc, Nat.div_add_mod']

theorem translates_compose (shape : List Nat) (hpos : ∀ L ∈ shape, 0 < L) (spc : Nat) (v w p q : List Int) (hv : v.length = shape.length)
    (hw : w.length = shape.length) (hp : Translates shape spc v p) (hq : Translates shape spc w q) :
    Translates shape spc (List.zipWith (· + ·) v w) (Grp.compose p q) := by
  unfold Translates at *
  rw [hp]
  unfold Grp.compose
  rw [List.map_map]
  refine List.map_congr_left fun x hx => ?_
  rw [List.mem_range] at hx
  have hspc : 0 < spc := by
    rcases Nat.eq_zero_or_pos spc with h | h
    · subst h; simp at hx
    · exact h
  have hc : x / spc < shape.prod := Grp.div_lt _ _ _ hx
  have hm : x % spc < spc := Nat.mod_lt _ hspc
  have hlt := cellFrom_lt shape hpos v (x / spc) hc
  have hy : cellFrom shape v (x / spc) * spc + x % spc < shape.prod * spc := by
    calc _ < cellFrom shape v (x / spc) * spc + spc := by omega
      _ = (cellFrom shape v (x / spc) + 1) * spc := by ring
      _ ≤ _ := Nat.mul_le_mul_right _ hlt
  simp only [Function.comp_apply, Int.toNat_natCast]
  rw [hq, List.getD_eq_getElem?_getD, List.getElem?_map, List.getElem?_range hy]
  simp only [Option.map_some, Option.getD_some]
  have e1 : (cellFrom shape v (x / spc) * spc + x % spc) / spc = cellFrom shape v (x / spc) := by
    rw [Nat.mul_comm, Nat.mul_add_div hspc, Nat.div_eq_of_lt hm, Nat.add_zero]
  have e2 : (cellFrom shape v (x / spc) * spc + x % spc) % spc = x % spc := by rw [Nat.mul_comm, Nat.mul_add_mod, Nat.mod_eq_of_lt hm]
  rw [e1, e2, cellFrom_add shape hpos v w hv hw _ hc]

theorem zipWith_zero (v : List Int) : List.zipWith (· + ·) v (List.replicate v.length 0) = v ∧ List.zipWith (· + ·) (List.replicate v.length 0) v = v := by
  induction v with
  | nil => simp
  | cons x v ih => simp [List.replicate_succ, ih]

/-- products of labelled elements are labelled with the sum of the vectors. -/
theorem labelled_prod (shape : List Nat) (hpos : ∀ L ∈ shape, 0 < L) (spc : Nat) (s t : Trans) (hs : Labelled shape spc s) (ht : Labelled shape spc t) :
    Labelled shape spc (s.prod t) ∧ (s.prod t).vec shape.length = List.zipWith (· + ·) (s.vec shape.length) (t.vec shape.length) := by
  cases s with
  | id =>
    refine ⟨by simpa [Trans.prod] using ht, ?_⟩
    have := (zipWith_zero (t.vec shape.length)).2
    rw [ht.1] at this
    simpa [Trans.prod, Trans.vec] using this.symm
  | tr p v =>
    cases t with
    | id =>
      refine ⟨by simpa [Trans.prod] using hs, ?_⟩
      have := (zipWith_zero v).1
      have hv : v.length = shape.length := hs.1
      rw [hv] at this
      simpa [Trans.prod, Trans.vec] using this.symm
    | tr q w =>
      have hv : v.length = shape.length := hs.1
      have hw : w.length = shape.length := ht.1
      exact ⟨⟨by simp [Trans.prod, Trans.vec, hv, hw], translates_compose shape hpos spc v w p q hv hw hs.2 ht.2⟩, rfl⟩

theorem unitVec_length (d a : Nat) : (unitVec d a).length = d := by simp [unitVec]

theorem unitVec_steps (d a : Nat) : unitVec d a = steps d a 1 := by
  refine List.ext_getElem (by simp [unitVec, steps]) fun i h1 h2 => ?_
  simp [unitVec, steps, List.getElem_set, eq_comm]

theorem steps_zero (d a : Nat) : steps d a 0 = List.replicate d 0 := by
  refine List.ext_getElem (by simp [steps]) fun i h1 h2 => ?_
  simp [steps]

theorem steps_add (d a : Nat) (k l : Int) : List.zipWith (· + ·) (steps d a k) (steps d a l) = steps d a (k + l) := by
  refine List.ext_getElem (by simp [steps]) fun i h1 h2 => ?_
  simp only [List.getElem_zipWith, steps, List.getElem_map, List.getElem_range]
  split <;> simp

theorem labelled_id (shape : List Nat) (hpos : ∀ L ∈ shape, 0 < L) (spc : Nat) : Labelled shape spc .id :=
  ⟨by simp [Trans.vec], translates_id shape hpos spc⟩

theorem labelled_one (shape : List Nat) (hpos : ∀ L ∈ shape, 0 < L) (spc a : Nat) (ha : a < shape.length) :
    Labelled shape spc (.tr (Grp.transByOne shape spc a) (unitVec shape.length a)) := by
  refine ⟨unitVec_length _ _, ?_⟩
  unfold Translates
  simp only [Trans.arr, Trans.vec, Grp.transByOne]
  refine List.map_congr_left fun x hx => ?_
  rw [List.mem_range] at hx
  rw [cellBack_from shape hpos a _ ha (Grp.div_lt _ _ _ hx)]

theorem transList_spec (shape : List Nat) (hpos : ∀ L ∈ shape, 0 < L) (spc a : Nat) (ha : a < shape.length) (n : Nat) :
    (∀ t ∈ transList (.tr (Grp.transByOne shape spc a) (unitVec shape.length a)) (n + 1), Labelled shape spc t)
    ∧ (transList (.tr (Grp.transByOne shape spc a) (unitVec shape.length a)) (n + 1)).map (Trans.vec shape.length)
      = (List.range (n + 1)).map fun k : Nat => steps shape.length a k := by
  induction n with
  | zero => exact ⟨by simpa [transList] using labelled_id shape hpos spc, by simp [transList, Trans.vec, steps_zero]⟩
  | succ n ih =>
    obtain ⟨h1, h2⟩ := ih
    set one : Trans := .tr (Grp.transByOne shape spc a) (unitVec shape.length a) with hone
    set l := transList one (n + 1) with hl
    have hlen : l.length = n + 1 := by
      have := congrArg List.length h2
      simpa using this
    have hne : l ≠ [] := by intro h; rw [h] at hlen; simp at hlen
    have hlast : l.getLastD .id = l.getLast hne := by
      rw [List.getLastD_eq_getLast?, List.getLast?_eq_some_getLast hne]; rfl
    have hmem : l.getLastD .id ∈ l := by rw [hlast]; exact List.getLast_mem hne
    have hvec : (l.getLastD .id).vec shape.length = steps shape.length a n := by
      have h3 := congrArg (fun m => m[n]?) h2
      simp only [List.getElem?_map, List.getElem?_range (Nat.lt_succ_self n), Option.map_some] at h3
      rw [hlast, List.getLast_eq_getElem]
      rw [List.getElem?_eq_getElem (by omega), Option.map_some, Option.some.injEq] at h3
      simp only [hlen, Nat.add_sub_cancel]
      exact h3
    have hp := labelled_prod shape hpos spc _ one (h1 _ hmem) (labelled_one shape hpos spc a ha)
    have e : transList one (n + 1 + 1) = l ++ [(l.getLastD .id).prod one] := rfl
    rw [e]
    refine ⟨fun t ht => ?_, ?_⟩
    · rcases List.mem_append.1 ht with h | h
      · exact h1 t h
      · rw [List.mem_singleton] at h; subst h; exact hp.1
    · rw [List.map_append, h2, List.range_succ (n := n + 1), List.map_append]
      congr 1
      simp only [List.map_cons, List.map_nil, List.cons.injEq, and_true]
      rw [hp.2, hvec, show Trans.vec shape.length one = steps shape.length a 1 by rw [hone]; exact unitVec_steps _ _, steps_add]
      push_cast; rfl

/-- an axis number of python for a lattice of `d` dimensions, negative ones counted from the end. -/
def axisOf (d : Nat) (a : Int) : Nat := if 0 ≤ a then a.toNat else (a + d).toNat

theorem index_ok (d : Nat) (a : Int) (h : -(d : Int) ≤ a ∧ a < d) : index d a = .ok (axisOf d a) ∧ axisOf d a < d := by
  unfold index axisOf
  by_cases h0 : 0 ≤ a
  · rw [if_pos ⟨h0, h.2⟩, if_pos h0]; exact ⟨rfl, by omega⟩
  · rw [if_neg (by omega), if_pos ⟨by omega, h.1⟩, if_neg h0]; exact ⟨rfl, by omega⟩

/-- the number of steps along an axis: all of the extent if it is periodic. -/
def stepsAlong (shape : List Nat) (pbc : List Bool) (a : Nat) : Nat := if pbc.getD a false then shape.getD a 0 else 1

theorem alongAxis_spec (shape : List Nat) (hpos : ∀ L ∈ shape, 0 < L) (pbc : List Bool) (spc : Nat) (a : Int) (ha : -(shape.length : Int) ≤ a ∧ a < shape.length) :
    ∃ g, alongAxis shape pbc spc a = .ok g ∧ (∀ t ∈ g, Labelled shape spc t)
      ∧ g.map (Trans.vec shape.length) = (List.range (stepsAlong shape pbc (axisOf shape.length a))).map fun k : Nat => steps shape.length (axisOf shape.length a) k := by
  obtain ⟨h1, h2⟩ := index_ok shape.length a ha
  unfold alongAxis stepsAlong
  rw [h1]
  refine ⟨_, rfl, ?_⟩
  by_cases hp : pbc.getD (axisOf shape.length a) false = true
  · rw [if_pos hp, if_pos hp]
    have hL : 0 < shape.getD (axisOf shape.length a) 0 := by
      rw [List.getD_eq_getElem?_getD, List.getElem?_eq_getElem h2]
      exact hpos _ (List.getElem_mem h2)
    obtain ⟨n, hn⟩ := Nat.exists_eq_succ_of_ne_zero (Nat.pos_iff_ne_zero.1 hL)
    rw [hn]
    exact transList_spec shape hpos spc _ h2 n
  · rw [if_neg hp, if_neg hp]
    exact ⟨by simpa using labelled_id shape hpos spc, by simp [Trans.vec, steps_zero]⟩

/-- sums of the vectors of two lists, the second running faster. -/
def sumsets (A B : List (List Int)) : List (List Int) := A.flatMap fun v => B.map fun w => List.zipWith (· + ·) v w

theorem matmul_spec (shape : List Nat) (hpos : ∀ L ∈ shape, 0 < L) (spc : Nat) (A B : List Trans) (hA : ∀ t ∈ A, Labelled shape spc t)
    (hB : ∀ t ∈ B, Labelled shape spc t) :
    (∀ t ∈ matmul A B, Labelled shape spc t)
    ∧ (matmul A B).map (Trans.vec shape.length) = sumsets (A.map (Trans.vec shape.length)) (B.map (Trans.vec shape.length)) := by
  constructor
  · intro t ht
    simp only [matmul, List.mem_flatMap, List.mem_map] at ht
    obtain ⟨a, ha, b, hb, rfl⟩ := ht
    exact (labelled_prod shape hpos spc a b (hA a ha) (hB b hb)).1
  · unfold matmul sumsets
    rw [List.map_flatMap, List.flatMap_map]
    refine List.flatMap_congr fun a ha => ?_
    rw [List.map_map, List.map_map]
    refine List.map_congr_left fun b hb => ?_
    exact (labelled_prod shape hpos spc a b (hA a ha) (hB b hb)).2

/-- the vectors of the translations along one axis. -/
def axisVectors (shape : List Nat) (pbc : List Bool) (a : Int) : List (List Int) :=
  (List.range (stepsAlong shape pbc (axisOf shape.length a))).map fun k : Nat => steps shape.length (axisOf shape.length a) k

theorem fold_spec (shape : List Nat) (hpos : ∀ L ∈ shape, 0 < L) (pbc : List Bool) (spc : Nat) (as : List Int)
    (has : ∀ a ∈ as, -(shape.length : Int) ≤ a ∧ a < shape.length) :
    ∃ gs, alongAxes shape pbc spc as = .ok gs ∧ gs.length = as.length ∧ ∀ g : List Trans, (∀ t ∈ g, Labelled shape spc t) →
      (∀ t ∈ gs.foldl matmul g, Labelled shape spc t)
      ∧ (gs.foldl matmul g).map (Trans.vec shape.length) = (as.map (axisVectors shape pbc)).foldl sumsets (g.map (Trans.vec shape.length)) := by
  induction as with
  | nil => exact ⟨[], rfl, rfl, fun g hg => ⟨hg, rfl⟩⟩
  | cons a as ih =>
    obtain ⟨gs, h1, h2, h3⟩ := ih fun x hx => has x (List.mem_cons_of_mem _ hx)
    obtain ⟨g0, k1, k2, k3⟩ := alongAxis_spec shape hpos pbc spc a (has a List.mem_cons_self)
    refine ⟨g0 :: gs, by simp only [alongAxes, k1, h1], by simp [h2], fun g hg => ?_⟩
    obtain ⟨m1, m2⟩ := matmul_spec shape hpos spc g g0 hg k2
    obtain ⟨f1, f2⟩ := h3 (matmul g g0) m1
    refine ⟨f1, ?_⟩
    rw [List.foldl_cons, f2, m2, List.map_cons, List.foldl_cons, k3]
    rfl

/-- **C192.** `translation_group(axes)` for a sequence of axes (negative numbers count from the end): every element is the translation of the lattice
    by the vector of its name, and the vectors are the sums of steps along the axes, in the order of the axes with the last one running fastest; axes
    with open ends contribute no steps. -/
theorem C192_translation_group (shape : List Nat) (hpos : ∀ L ∈ shape, 0 < L) (pbc : List Bool) (spc : Nat) (a : Int) (as : List Int)
    (has : ∀ b ∈ a :: as, -(shape.length : Int) ≤ b ∧ b < shape.length) :
    ∃ g, translationGroup shape pbc spc (.seq (a :: as)) = .ok g
      ∧ (∀ t ∈ g, Translates shape spc (t.vec shape.length) (t.arr (shape.prod * spc)))
      ∧ g.map (Trans.vec shape.length) = (as.map (axisVectors shape pbc)).foldl sumsets (axisVectors shape pbc a) := by
  obtain ⟨gs, h1, h2, h3⟩ := fold_spec shape hpos pbc spc as fun x hx => has x (List.mem_cons_of_mem _ hx)
  obtain ⟨g0, k1, k2, k3⟩ := alongAxis_spec shape hpos pbc spc a (has a List.mem_cons_self)
  obtain ⟨f1, f2⟩ := h3 g0 k2
  refine ⟨gs.foldl matmul g0, ?_, fun t ht => (f1 t ht).2, by rw [f2, k3]; rfl⟩
  simp only [translationGroup, alongAxes, k1, h1, reduceGroups]

/-- **C192.** without an argument all axes are taken, in order; with one integer that axis only; an axis number out of range is an IndexError. -/
theorem C192_translation_axes (shape : List Nat) (hpos : ∀ L ∈ shape, 0 < L) (pbc : List Bool) (spc : Nat) :
    translationGroup shape pbc spc .absent = translationGroup shape pbc spc (.seq ((List.range shape.length).map fun i : Nat => (i : Int)))
    ∧ (∀ a, translationGroup shape pbc spc (.int a) = translationGroup shape pbc spc (.seq [a]))
    ∧ ∀ a : Int, ¬(-(shape.length : Int) ≤ a ∧ a < shape.length) → translationGroup shape pbc spc (.int a) = .error .indexError := by
  refine ⟨rfl, fun a => ?_, fun a ha => ?_⟩
  · simp only [translationGroup, alongAxes]
    cases alongAxis shape pbc spc a <;> rfl
  · simp only [translationGroup, alongAxis, index]
    rw [if_neg (by omega), if_neg (by omega)]

/-- **C193, refuted.** no axes at all, or one axis given as an integer of numpy, are a TypeError. -/
theorem C193_translation_axes_refuted (shape : List Nat) (pbc : List Bool) (spc : Nat) (a : Int) :
    translationGroup shape pbc spc (.seq []) = .error .typeError ∧ translationGroup shape pbc spc (.npInt a) = .error .typeError := ⟨rfl, rfl⟩

/-- a 2 × 3 lattice, closed along the second axis only. -/
example : (∀ L ∈ [2, 3], 0 < L) ∧ (∀ b ∈ [(-1 : Int), 0], -(([2, 3] : List Nat).length : Int) ≤ b ∧ b < ([2, 3] : List Nat).length) := by decide
example : (((([0] : List Int)).map (axisVectors [2, 3] [false, true])).foldl sumsets (axisVectors [2, 3] [false, true] (-1))) = [[0, 0], [0, 1], [0, 2]] := by decide
example : cellFrom [2, 3] [0, 1] 3 = 5 := by decide

/-! ## The default point group -/

section
variable {E α U : Type}

/-- **C192.** a point group given as an argument is used, with the unit cell of the lattice, and the default is not touched; without an argument
    the default is used, and a RuntimeError reports that there is none. -/
theorem C192_builder (basis : U) (env : E) (st : Default E (List α × Option U)) (g : List α × Option U) :
    builder basis env st (some g) = (st, false, .ok (g.1, some basis))
    ∧ (builder basis env (.group g) none).2.2 = .ok (g.1, some basis)
    ∧ (builder basis env (.nothing : Default E (List α × Option U)) none).2.2 = .error .runtimeError := ⟨rfl, rfl, rfl⟩

theorem requests_group (basis : U) (g : List α × Option U) (rs : List (E × Option (List α × Option U))) :
    requests basis (.group g) rs = (rs.map fun r => .ok ((match r.2 with | none => g.1 | some h => h.1), some basis), 0) := by
  induction rs with
  | nil => rfl
  | cons r rs ih =>
    obtain ⟨e, a⟩ := r
    cases a with
    | none => simp only [requests, builder, ih]; simp
    | some h => simp only [requests, builder, ih]; simp

/-- **C192.** a function given as the default is called at the first request without an argument, and not again: all such requests get the group it
    returned then, whatever happened to the objects it refers to. -/
theorem C192_default_once (basis : U) (f : E → List α × Option U) (pre post : List (E × Option (List α × Option U))) (env : E)
    (hpre : ∀ r ∈ pre, r.2 ≠ none) :
    requests basis (.callable f) (pre ++ (env, none) :: post)
      = ((pre ++ (env, none) :: post).map fun r => .ok ((match r.2 with | none => (f env).1 | some h => h.1), some basis), 1) := by
  induction pre with
  | nil =>
    simp only [List.nil_append, requests, builder, requests_group]
    simp
  | cons r pre ih =>
    obtain ⟨e, a⟩ := r
    cases a with
    | none => exact absurd rfl (hpre (e, none) List.mem_cons_self)
    | some h =>
      have := ih fun r hr => hpre r (List.mem_cons_of_mem _ hr)
      simp only [List.cons_append, requests, builder, this]
      simp

/-- **C193, refuted.** the default group of a lattice is not fixed when the lattice is made: changing the list `pbc` which was given to `Grid` before
    the first request changes the group. -/
theorem C193_late_default_refuted (basis : U) (f : E → List α × Option U) (e e' : E) (hf : (f e).1 ≠ (f e').1) :
    (requests basis (.callable f) [(e, none)]).1 ≠ (requests basis (.callable f) [(e', none)]).1 := by
  simp only [requests, builder]
  simpa using hf

example : (requests (E := List Bool) (α := Nat) (U := Nat) 0 (.callable fun pbc => ([pbc.length], none)) [([true], none), ([true, true], none)])
    = ([.ok ([1], some 0), .ok ([1], some 0)], 1) := by rfl

end

end Verif.GrpCls
