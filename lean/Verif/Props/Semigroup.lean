import Verif.Model.Group
import Mathlib.Data.List.Basic
import Mathlib.Data.List.Nodup
import Mathlib.Data.List.Forall2
import Mathlib.Tactic.Ring

/-! C38: products of permutations and of semigroup elements act as composed maps. -/

set_option linter.unusedSectionVars false
set_option linter.unusedVariables false

namespace Verif.Grp
open Verif.Hilbert (Err pyIndex orIndexError)

/-! ## Permutations -/

/-- a permutation of `0, …, n-1` written as an array. -/
def IsPerm (n : Nat) (p : List Int) : Prop := p.length = n ∧ p.Nodup ∧ ∀ i ∈ p, 0 ≤ i ∧ i < (n : Int)

theorem pyIndex_nonneg {α : Type} (x : List α) (i : Int) (h0 : 0 ≤ i) (h : i < (x.length : Int)) (d : α) :
    pyIndex x i = .ok (x.getD i.toNat d) := by
  have hi : i.toNat < x.length := by omega
  unfold pyIndex
  rw [if_pos h0, List.getElem?_eq_getElem hi, List.getD_eq_getElem?_getD, List.getElem?_eq_getElem hi]
  rfl

theorem gather_ok {α : Type} (x : List α) (p : List Int) (h : ∀ i ∈ p, 0 ≤ i ∧ i < (x.length : Int)) (d : α) :
    gather x p = .ok (p.map fun i => x.getD i.toNat d) := by
  induction p with
  | nil => rfl
  | cons i r ih =>
    rw [gather, pyIndex_nonneg x i (h i (by simp)).1 (h i (by simp)).2 d,
      ih fun j hj => h j (List.mem_cons_of_mem _ hj)]
    rfl

theorem compose_getD (p q : List Int) (k : Nat) (hk : k < p.length) :
    (compose p q).getD k 0 = q.getD (p.getD k 0).toNat 0 := by
  unfold compose
  rw [List.getD_eq_getElem?_getD, List.getElem?_map, List.getElem?_eq_getElem hk, List.getD_eq_getElem?_getD,
    List.getD_eq_getElem?_getD, List.getElem?_eq_getElem hk]
  rfl

theorem compose_isPerm (n : Nat) (p q : List Int) (hp : IsPerm n p) (hq : IsPerm n q) : IsPerm n (compose p q) := by
  obtain ⟨hp1, hp2, hp3⟩ := hp
  obtain ⟨hq1, hq2, hq3⟩ := hq
  refine ⟨by simp [compose, hp1], ?_, ?_⟩
  · unfold compose
    refine List.Nodup.map_on ?_ hp2
    intro a ha b hb hab
    have h1 := hp3 a ha
    have h2 := hp3 b hb
    have ha' : a.toNat < q.length := by omega
    have hb' : b.toNat < q.length := by omega
    rw [List.getD_eq_getElem?_getD, List.getD_eq_getElem?_getD, List.getElem?_eq_getElem ha',
      List.getElem?_eq_getElem hb'] at hab
    have := (hq2.getElem_inj_iff).1 hab
    omega
  · intro i hi
    unfold compose at hi
    obtain ⟨a, ha, rfl⟩ := List.mem_map.1 hi
    have h1 := hp3 a ha
    have ha' : a.toNat < q.length := by omega
    rw [List.getD_eq_getElem?_getD, List.getElem?_eq_getElem ha']
    exact hq3 _ (List.getElem_mem ha')

/-- `p @ q` is a permutation whose array is `q[p]`, and `(p @ q)(x) = p(q(x))` for every array of the right length, in
    any type of entries. -/
theorem C38_permutation {α : Type} (n : Nat) (p q : List Int) (hp : IsPerm n p) (hq : IsPerm n q) (x : List α)
    (hx : x.length = n) :
    ∃ r y z, permProd p q = some (.ok r) ∧ IsPerm n r ∧ permAct q x = .ok y ∧ permAct p y = .ok z
      ∧ permAct r x = .ok z := by
  have hpq : permAct p q = .ok (compose p q) := by
    unfold permAct
    rw [gather_ok q p (fun i hi => by rw [hq.1]; exact hp.2.2 i hi) 0]
    rfl
  have hr := compose_isPerm n p q hp hq
  cases x with
  | nil =>
    subst hx
    have h1 : p = [] := List.length_eq_zero_iff.1 hp.1
    have h2 : q = [] := List.length_eq_zero_iff.1 hq.1
    subst h1 h2
    exact ⟨[], [], [], rfl, hp, rfl, rfl, rfl⟩
  | cons d x' =>
    set x := d :: x' with hxd
    have hy : permAct q x = .ok (q.map fun i => x.getD i.toNat d) :=
      gather_ok x q (fun i hi => by rw [hx]; exact hq.2.2 i hi) d
    have hz : permAct p (q.map fun i => x.getD i.toNat d)
        = .ok (p.map fun i => (q.map fun i => x.getD i.toNat d).getD i.toNat d) :=
      gather_ok _ p (fun i hi => by rw [List.length_map, hq.1]; exact hp.2.2 i hi) d
    refine ⟨compose p q, _, _, by unfold permProd; rw [hpq], hr, hy, hz, ?_⟩
    have : permAct (compose p q) x = _ := gather_ok x _ (fun i hi => by rw [hx]; exact hr.2.2 i hi) d
    rw [this, compose, List.map_map]
    congr 1
    apply List.map_congr_left
    intro i hi
    have hi' : i.toNat < q.length := by have := hp.2.2 i hi; rw [hq.1]; omega
    simp only [Function.comp]
    simp only [List.getD_eq_getElem?_getD, List.getElem?_map, List.getElem?_eq_getElem hi', Option.map_some,
      Option.getD_some]

example : IsPerm 3 [1, 2, 0] ∧ IsPerm 3 [1, 0, 2] ∧ permProd [1, 2, 0] [1, 0, 2] = some (.ok [0, 2, 1])
    ∧ permAct [0, 2, 1] [7, 8, 9] = .ok [7, 9, 8] := by
  refine ⟨?_, ?_, by decide +kernel, by decide +kernel⟩ <;> simp [IsPerm]

/-! ## Composites -/

/-- requirements on the atoms: `good` atoms act on every ket of `dom` and stay in it, and a special product rule, where there is
    one, gives a good atom acting as the composed map. -/
structure Atoms {A X : Type} (f : A → X → Except Err X) (pm : A → A → Option (Except Err A)) (good : A → Prop)
    (dom : X → Prop) : Prop where
  acts : ∀ a, good a → ∀ x, dom x → ∃ y, f a x = .ok y ∧ dom y
  rule : ∀ a b, good a → good b → ∀ r, pm a b = some r →
    ∃ c, r = .ok c ∧ good c ∧ ∀ x y, dom x → f b x = .ok y → f c x = f a y

/-- all atoms in an element are good. -/
def Elem.Good {A : Type} (good : A → Prop) : Elem A → Prop
  | .id => True
  | .atom a => good a
  | .comp l r => l.Good good ∧ r.Good good

/-- no identity occurs in an element. -/
def Elem.NoId {A : Type} : Elem A → Prop
  | .id => False
  | .atom _ => True
  | .comp l r => l.NoId ∧ r.NoId

section
variable {A X : Type} {f : A → X → Except Err X} {pm : A → A → Option (Except Err A)} {good : A → Prop} {dom : X → Prop}
variable (H : Atoms f pm good dom)
include H

theorem act_ok (e : Elem A) (he : e.Good good) (x : X) (hx : dom x) : ∃ y, e.act f x = .ok y ∧ dom y := by
  induction e generalizing x with
  | id => exact ⟨x, rfl, hx⟩
  | atom a => exact H.acts a he x hx
  | comp l r ihl ihr =>
    obtain ⟨y, h1, h2⟩ := ihr he.2 x hx
    obtain ⟨z, h3, h4⟩ := ihl he.1 y h2
    exact ⟨z, by rw [Elem.act, h1]; exact h3, h4⟩

/-- `c` acts as `a` after `b`. -/
def ActsAs (f : A → X → Except Err X) (good : A → Prop) (dom : X → Prop) (c a b : Elem A) : Prop :=
  c.Good good ∧ ∀ x y, dom x → b.act f x = .ok y → c.act f x = a.act f y

omit H in
theorem actsAs_comp (a b : Elem A) (ha : a.Good good) (hb : b.Good good) : ActsAs f good dom (.comp a b) a b := by
  refine ⟨⟨ha, hb⟩, ?_⟩
  intro x y _ h
  rw [Elem.act, h]

theorem atomProd_acts (a : A) (ha : good a) (b c : Elem A) (hb : b.Good good) (h : atomProd pm a b = .ok c) :
    ActsAs f good dom c (.atom a) b := by
  induction b generalizing c with
  | id =>
    simp only [atomProd, Except.ok.injEq] at h
    subst h
    refine ⟨ha, ?_⟩
    intro x y _ h'
    simp only [Elem.act, Except.ok.injEq] at h' ⊢
    rw [h']
  | atom b =>
    rw [atomProd, atomAtom] at h
    rcases hp : pm a b with _ | r
    · rw [hp] at h
      simp only [Except.ok.injEq] at h
      subst h
      exact actsAs_comp _ _ ha hb
    · rw [hp] at h
      obtain ⟨c', rfl, hc, hact⟩ := H.rule a b ha hb r hp
      simp only [Except.ok.injEq] at h
      subst h
      exact ⟨hc, hact⟩
  | comp l r ihl ihr =>
    rw [atomProd] at h
    have hwhole := actsAs_comp (f := f) (dom := dom) (.atom a) (.comp l r) ha hb
    rcases hl : atomProd pm a l with e | ab
    · rw [hl] at h; simp [joinLeft] at h
    · rw [hl] at h
      have hab := ihl ab hb.1 hl
      have hjoin : ActsAs f good dom (.comp ab r) (.atom a) (.comp l r) := by
        refine ⟨⟨hab.1, hb.2⟩, ?_⟩
        intro x y hx h'
        rw [Elem.act] at h' ⊢
        obtain ⟨z, hz, hdz⟩ := act_ok H r hb.2 x hx
        rw [hz] at h' ⊢
        exact hab.2 z y hdz h'
      cases ab with
      | comp _ _ =>
        simp only [joinLeft, Except.ok.injEq] at h
        subst h
        exact hwhole
      | id => simp only [joinLeft, Except.ok.injEq] at h; subst h; exact hjoin
      | atom _ => simp only [joinLeft, Except.ok.injEq] at h; subst h; exact hjoin

theorem product_acts (a b c : Elem A) (ha : a.Good good) (hb : b.Good good) (h : product pm a b = .ok c) :
    ActsAs f good dom c a b := by
  induction a generalizing b c with
  | id =>
    have hc : c = b := by
      cases b with
      | id => simp only [product, idProd, Except.ok.injEq] at h; exact h.symm
      | atom b => simp only [product, idProd, Except.ok.injEq] at h; exact h.symm
      | comp l r => simp [product, idProd] at h
    subst hc
    refine ⟨hb, ?_⟩
    intro x y _ h'
    rw [h']; rfl
  | atom a => rw [product] at h; exact atomProd_acts H a ha b c hb h
  | comp l r ihl ihr =>
    have hwhole := actsAs_comp (f := f) (dom := dom) (.comp l r) b ha hb
    cases b with
    | id => simp [product] at h
    | atom d =>
      rw [product] at h
      rcases hr : product pm r (.atom d) with e | bc
      · rw [hr] at h; simp [joinRight] at h
      · rw [hr] at h
        have hbc := ihr (.atom d) bc ha.2 hb hr
        have hjoin : ActsAs f good dom (.comp l bc) (.comp l r) (.atom d) := by
          refine ⟨⟨ha.1, hbc.1⟩, ?_⟩
          intro x y hx h'
          have h1 := hbc.2 x y hx h'
          rw [Elem.act, h1]
          rfl
        cases bc with
        | comp _ _ => simp only [joinRight, Except.ok.injEq] at h; subst h; exact hwhole
        | id => simp only [joinRight, Except.ok.injEq] at h; subst h; exact hjoin
        | atom _ => simp only [joinRight, Except.ok.injEq] at h; subst h; exact hjoin
    | comp l' r' =>
      rw [product] at h
      rcases hr : product pm r l' with e | bc
      · rw [hr] at h; simp [joinBoth] at h
      · rw [hr] at h
        have hbc := ihr l' bc ha.2 hb.1 hr
        have hjoin : ActsAs f good dom (.comp l (.comp bc r')) (.comp l r) (.comp l' r') := by
          refine ⟨⟨ha.1, hbc.1, hb.2⟩, ?_⟩
          intro x y hx h'
          obtain ⟨z, hz, hdz⟩ := act_ok H r' hb.2 x hx
          rw [Elem.act, hz] at h'
          have h1 := hbc.2 z y hdz h'
          rw [Elem.act, Elem.act, hz]
          simp only [h1]
          rfl
        cases bc with
        | comp _ _ => simp only [joinBoth, Except.ok.injEq] at h; subst h; exact hwhole
        | id => simp only [joinBoth, Except.ok.injEq] at h; subst h; exact hjoin
        | atom _ => simp only [joinBoth, Except.ok.injEq] at h; subst h; exact hjoin

/-- whenever the product of two elements (identities, atoms, composites nested in any way) is formed, it acts on every ket as the
    composed map. -/
theorem C38_product_acts (a b c : Elem A) (ha : a.Good good) (hb : b.Good good) (h : product pm a b = .ok c) (x : X)
    (hx : dom x) : ∃ y z, b.act f x = .ok y ∧ a.act f y = .ok z ∧ c.act f x = .ok z := by
  obtain ⟨y, hy, hdy⟩ := act_ok H b hb x hx
  obtain ⟨z, hz, _⟩ := act_ok H a ha y hdy
  exact ⟨y, z, hy, hz, by rw [(product_acts H a b c ha hb h).2 x y hx hy, hz]⟩

/-- any bracketing of three elements gives the same action. -/
theorem C38_bracketing (a b c ab bc l r : Elem A) (ha : a.Good good) (hb : b.Good good) (hc : c.Good good)
    (hab : product pm a b = .ok ab) (hl : product pm ab c = .ok l) (hbc : product pm b c = .ok bc)
    (hr : product pm a bc = .ok r) (x : X) (hx : dom x) : l.act f x = r.act f x := by
  have g1 := product_acts H a b ab ha hb hab
  have g2 := product_acts H ab c l g1.1 hc hl
  have g3 := product_acts H b c bc hb hc hbc
  have g4 := product_acts H a bc r ha g3.1 hr
  obtain ⟨y, hy, hdy⟩ := act_ok H c hc x hx
  obtain ⟨z, hz, hdz⟩ := act_ok H b hb y hdy
  rw [g2.2 x y hx hy, g1.2 y z hdy hz, g4.2 x z hx (by rw [g3.2 x y hx hy, hz])]

/-- products of elements without identities are always formed, and contain no identity. -/
theorem C38_product_exists (a b : Elem A) (ha : a.Good good) (hb : b.Good good) (na : a.NoId) (nb : b.NoId) :
    ∃ c, product pm a b = .ok c ∧ c.Good good ∧ c.NoId := by
  have hatom : ∀ (a : A), good a → ∀ b : Elem A, b.Good good → b.NoId → ∃ c, atomProd pm a b = .ok c ∧ c.NoId := by
    intro a ha b hb nb
    induction b with
    | id => exact absurd nb id
    | atom b =>
      rw [atomProd, atomAtom]
      rcases hp : pm a b with _ | r
      · exact ⟨_, rfl, trivial, trivial⟩
      · obtain ⟨c, rfl, _, _⟩ := H.rule a b ha hb r hp
        exact ⟨_, rfl, trivial⟩
    | comp l r ihl ihr =>
      obtain ⟨c, h1, h2⟩ := ihl hb.1 nb.1
      rw [atomProd, h1]
      cases c with
      | id => exact absurd h2 id
      | atom c => exact ⟨_, rfl, trivial, nb.2⟩
      | comp _ _ => exact ⟨_, rfl, trivial, nb.1, nb.2⟩
  have hex : ∃ c, product pm a b = .ok c ∧ c.NoId := by
    induction a generalizing b with
    | id => exact absurd na id
    | atom a => rw [product]; exact hatom a ha b hb nb
    | comp l r ihl ihr =>
      cases b with
      | id => exact absurd nb id
      | atom d =>
        obtain ⟨c, h1, h2⟩ := ihr (.atom d) ha.2 hb na.2 nb
        rw [product, h1]
        cases c with
        | id => exact absurd h2 id
        | atom c => exact ⟨_, rfl, na.1, trivial⟩
        | comp _ _ => exact ⟨_, rfl, ⟨na.1, na.2⟩, trivial⟩
      | comp l' r' =>
        obtain ⟨c, h1, h2⟩ := ihr l' ha.2 hb.1 na.2 nb.1
        rw [product, h1]
        cases c with
        | id => exact absurd h2 id
        | atom c => exact ⟨_, rfl, na.1, trivial, nb.2⟩
        | comp _ _ => exact ⟨_, rfl, ⟨na.1, na.2⟩, nb.1, nb.2⟩
  obtain ⟨c, h1, h2⟩ := hex
  exact ⟨c, h1, (product_acts H a b c ha hb h1).1, h2⟩

theorem productRow_acts (a : Elem A) (ha : a.Good good) (bs cs : List (Elem A)) (hb : ∀ b ∈ bs, b.Good good)
    (h : productRow pm a bs = .ok cs) : List.Forall₂ (fun c b => ActsAs f good dom c a b) cs bs := by
  induction bs generalizing cs with
  | nil => simp only [productRow, Except.ok.injEq] at h; subst h; exact List.Forall₂.nil
  | cons b bs ih =>
    rw [productRow] at h
    rcases hp : product pm a b with e | c
    · rw [hp] at h; simp at h
    · rw [hp] at h
      rcases hr : productRow pm a bs with e | cs'
      · rw [hr] at h; simp at h
      · rw [hr] at h
        simp only [Except.ok.injEq] at h
        subst h
        exact List.Forall₂.cons (product_acts H a b c ha (hb b (by simp)) hp)
          (ih cs' (fun b hb' => hb b (List.mem_cons_of_mem _ hb')) hr)

/-- the product of two lists of elements: element `i * len(B) + j` acts as element `i` of `A` after element `j` of `B`. -/
theorem C38_group_product (as bs cs : List (Elem A)) (ha : ∀ a ∈ as, a.Good good) (hb : ∀ b ∈ bs, b.Good good)
    (h : productList pm as bs = .ok cs) :
    cs.length = as.length * bs.length ∧ ∀ (i j : Nat) a b, as[i]? = some a → bs[j]? = some b →
      ∃ c, cs[i * bs.length + j]? = some c ∧ ∀ x, dom x → ∃ y z, b.act f x = .ok y ∧ a.act f y = .ok z ∧ c.act f x = .ok z := by
  induction as generalizing cs with
  | nil =>
    simp only [productList, Except.ok.injEq] at h
    subst h
    exact ⟨by simp, by simp⟩
  | cons a0 as ih =>
    rw [productList] at h
    rcases hp : productRow pm a0 bs with e | r
    · rw [hp] at h; simp at h
    rw [hp] at h
    simp only at h
    rcases hr : productList pm as bs with e | ds
    · rw [hr] at h; simp at h
    rw [hr] at h
    simp only [Except.ok.injEq] at h
    subst h
    obtain ⟨h1, h2⟩ := ih ds (fun a ha' => ha a (List.mem_cons_of_mem _ ha')) hr
    have hf := productRow_acts H a0 (ha a0 (by simp)) bs r hb hp
    have hlen : r.length = bs.length := hf.length_eq
    refine ⟨by rw [List.length_append, hlen, h1, List.length_cons]; ring, ?_⟩
    intro i j a b hi hj
    cases i with
    | zero =>
      simp only [List.getElem?_cons_zero, Option.some.injEq] at hi
      subst hi
      have hjl : j < bs.length := (List.getElem?_eq_some_iff.1 hj).1
      have hjr : j < r.length := by omega
      refine ⟨r[j], by rw [Nat.zero_mul, Nat.zero_add, List.getElem?_append_left hjr, List.getElem?_eq_getElem hjr], ?_⟩
      have hact := (List.forall₂_iff_get.1 hf).2 j hjr hjl
      have hbj : bs[j] = b := Option.some.inj ((List.getElem?_eq_getElem hjl).symm.trans hj)
      simp only [List.get_eq_getElem, hbj] at hact
      intro x hx
      obtain ⟨y, hy, hdy⟩ := act_ok H b (hb b (List.mem_of_getElem? hj)) x hx
      obtain ⟨z, hz, _⟩ := act_ok H a0 (ha a0 (by simp)) y hdy
      exact ⟨y, z, hy, hz, by rw [hact.2 x y hx hy, hz]⟩
    | succ i =>
      obtain ⟨c, hc, hall⟩ := h2 i j a b hi hj
      refine ⟨c, ?_, hall⟩
      rw [List.getElem?_append_right (by rw [hlen, Nat.succ_mul]; omega), hlen,
        show (i + 1) * bs.length + j - bs.length = i * bs.length + j by rw [Nat.succ_mul]; omega]
      exact hc

end

/-- permutations of `n` points acting on arrays of length `n` meet the requirements. -/
theorem perm_atoms (α : Type) (n : Nat) :
    Atoms (fun p (x : List α) => permAct p x) permProd (IsPerm n) (fun x => x.length = n) where
  acts := by
    intro p hp x hx
    cases x with
    | nil =>
      subst hx
      have h1 : p = [] := List.length_eq_zero_iff.1 hp.1
      subst h1
      exact ⟨[], rfl, rfl⟩
    | cons d x' =>
      refine ⟨_, gather_ok (d :: x') p (fun i hi => by rw [hx]; exact hp.2.2 i hi) d, ?_⟩
      rw [List.length_map, hp.1]
  rule := by
    intro p q hp hq r hr
    have hpq : permAct p q = .ok (compose p q) := by
      unfold permAct
      rw [gather_ok q p (fun i hi => by rw [hq.1]; exact hp.2.2 i hi) 0]
      rfl
    simp only [permProd, Option.some.injEq] at hr
    refine ⟨compose p q, by rw [← hr, hpq], compose_isPerm n p q hp hq, ?_⟩
    intro x y hx hy
    obtain ⟨r', y', z, h1, _, h3, h4, h5⟩ := C38_permutation n p q hp hq x hx
    simp only [permProd, hpq, Option.some.injEq, Except.ok.injEq] at h1
    subst h1
    rw [h3] at hy
    simp only [Except.ok.injEq] at hy
    subst hy
    rw [h5, h4]

/-- the array of an element of a permutation group (a row of `to_array()`) represents it: it is a permutation and gathering with it
    is the action of the element. -/
theorem C38_canonical {α : Type} (n : Nat) (e : Elem (List Int)) (he : e.Good (IsPerm n)) :
    ∃ p, canonical n e = .ok p ∧ IsPerm n p
      ∧ ∀ x : List α, x.length = n → ∃ y, e.act permAct x = .ok y ∧ permAct p x = .ok y := by
  suffices hgen : ∀ q : List Int, IsPerm n q → ∃ p, e.act permAct q = .ok p ∧ IsPerm n p
      ∧ ∀ x y : List α, x.length = n → permAct q x = .ok y → ∃ z, e.act permAct y = .ok z ∧ permAct p x = .ok z by
    have har : IsPerm n (arange n) := by
      refine ⟨by simp [arange], List.Nodup.map (fun a b h => Int.ofNat.inj h) List.nodup_range, ?_⟩
      intro i hi
      simp only [arange, List.mem_map, List.mem_range] at hi
      obtain ⟨k, hk, rfl⟩ := hi
      omega
    obtain ⟨p, h1, h2, h3⟩ := hgen (arange n) har
    refine ⟨p, h1, h2, fun x hx => h3 x x hx ?_⟩
    cases x with
    | nil => subst hx; rfl
    | cons d x' =>
      unfold permAct
      rw [gather_ok (d :: x') (arange n) (fun i hi => by rw [hx]; exact har.2.2 i hi) d, ← hx, arange, List.map_map]
      congr 1
      apply List.ext_getElem (by simp)
      intro k k1 k2
      simp only [List.getElem_map, List.getElem_range, Function.comp, Int.toNat_natCast]
      rw [List.getD_eq_getElem?_getD, List.getElem?_eq_getElem k2]
      rfl
  induction e with
  | id => intro q hq; exact ⟨q, rfl, hq, fun x y _ h => ⟨y, rfl, h⟩⟩
  | atom a =>
    intro q hq
    obtain ⟨r, y0, z0, h1, h2, -⟩ := C38_permutation (α := Unit) n a q he hq (List.replicate n ()) (by simp)
    simp only [permProd, Option.some.injEq] at h1
    refine ⟨r, h1, h2, ?_⟩
    intro x y hx hy
    obtain ⟨r', y', z, g1, _, g3, g4, g5⟩ := C38_permutation n a q he hq x hx
    simp only [permProd, Option.some.injEq] at g1
    obtain rfl := Except.ok.inj (h1.symm.trans g1)
    obtain rfl := Except.ok.inj (hy.symm.trans g3)
    exact ⟨z, g4, g5⟩
  | comp l r ihl ihr =>
    intro q hq
    obtain ⟨p1, h1, h2, h3⟩ := ihr he.2 q hq
    obtain ⟨p2, g1, g2, g3⟩ := ihl he.1 p1 h2
    refine ⟨p2, by rw [Elem.act, h1]; exact g1, g2, ?_⟩
    intro x y hx hy
    obtain ⟨z, e1, e2⟩ := h3 x y hx hy
    obtain ⟨w, e3, e4⟩ := g3 x z hx e2
    exact ⟨w, by rw [Elem.act, e1]; exact e3, e4⟩

example : canonical 3 (.comp (.atom [1, 2, 0]) (.comp .id (.atom [1, 0, 2]))) = .ok [0, 2, 1] := by decide +kernel

/-- combining a composite with the identity fails: the product of `Identity()` and a composite is ambiguous. -/
theorem C116_identity_refuted :
    ¬ ∀ (A : Type) (pm : A → A → Option (Except Err A)) (a b : Elem A), ∃ c, product pm a b = .ok c := by
  intro h
  obtain ⟨c, hc⟩ := h Nat (fun _ _ => none) .id (.comp (.atom 0) (.atom 1))
  simp [product, idProd] at hc

/-- two atoms of different kinds and a third one: both bracketings are composites. -/
example : product (A := Nat) (fun a b => if a = b then some (.ok a) else none) (.comp (.atom 0) (.atom 1)) (.atom 1)
    = .ok (.comp (.atom 0) (.atom 1)) := rfl

end Verif.Grp
