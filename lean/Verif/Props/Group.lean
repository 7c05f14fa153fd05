import Verif.Props.Semigroup
import Mathlib.Data.List.Perm.Subperm
import Mathlib.Data.List.Sort
import Mathlib.Data.Fintype.EquivFin
import Mathlib.Data.Fintype.Card

/-! C39: inverses and product tables of permutation groups; C40: removal of duplicates. -/

set_option linter.unusedSectionVars false
set_option linter.unusedVariables false

namespace Verif.Grp
open Verif.Hilbert (Err pyIndex)

/-! ## Sorting -/

theorem sortBy_perm {α : Type} (le : α → α → Bool) (l : List α) : (sortBy le l).Perm l := List.perm_insertionSort _ _

theorem mem_sortBy {α : Type} {le : α → α → Bool} {l : List α} {x : α} : x ∈ sortBy le l ↔ x ∈ l := (sortBy_perm le l).mem_iff

theorem sortBy_pairwise {α : Type} {le : α → α → Bool} (htr : ∀ a b c, le a b = true → le b c = true → le a c = true)
    (htot : ∀ a b, (le a b || le b a) = true) (l : List α) : (sortBy le l).Pairwise fun a b => le a b = true := by
  haveI : Std.Total fun a b : α => le a b = true := ⟨fun a b => by simpa using htot a b⟩
  haveI : IsTrans α fun a b : α => le a b = true := ⟨htr⟩
  exact List.pairwise_insertionSort _ l

/-! ## Arrays of permutations -/

theorem mem_arange (n : Nat) (x : Int) : x ∈ arange n ↔ 0 ≤ x ∧ x < n := by
  simp only [arange, List.mem_map, List.mem_range]
  constructor
  · rintro ⟨k, hk, rfl⟩; omega
  · rintro ⟨h1, h2⟩; exact ⟨x.toNat, by omega, by omega⟩

theorem arange_getD (n k : Nat) (h : k < n) : (arange n).getD k 0 = k := by
  rw [arange, List.getD_eq_getElem?_getD, List.getElem?_map, List.getElem?_range h]
  rfl

theorem arange_isPerm (n : Nat) : IsPerm n (arange n) := by
  refine ⟨by simp [arange], ?_, fun i hi => (mem_arange n i).1 hi⟩
  refine List.Nodup.map ?_ List.nodup_range
  intro a b h
  exact Int.ofNat.inj h

theorem isPerm_perm (n : Nat) (p : List Int) (hp : IsPerm n p) : p.Perm (arange n) := by
  obtain ⟨h1, h2, h3⟩ := hp
  refine List.Subperm.perm_of_length_le (List.subperm_of_subset h2 fun i hi => (mem_arange n i).2 (h3 i hi)) ?_
  simp [arange, h1]

theorem isPerm_of_perm (n : Nat) (p : List Int) (h : p.Perm (arange n)) : IsPerm n p := by
  obtain ⟨h1, h2, h3⟩ := arange_isPerm n
  exact ⟨by rw [h.length_eq, h1], h.nodup_iff.2 h2, fun i hi => h3 i (h.mem_iff.1 hi)⟩

theorem ext_getD (n : Nat) (p q : List Int) (hp : p.length = n) (hq : q.length = n)
    (h : ∀ k < n, p.getD k 0 = q.getD k 0) : p = q := by
  apply List.ext_getElem (by omega)
  intro k h1 h2
  have := h k (by omega)
  rwa [List.getD_eq_getElem?_getD, List.getD_eq_getElem?_getD, List.getElem?_eq_getElem h1,
    List.getElem?_eq_getElem h2] at this

theorem isPerm_getD (n : Nat) (p : List Int) (hp : IsPerm n p) (k : Nat) (hk : k < n) :
    0 ≤ p.getD k 0 ∧ p.getD k 0 < n := by
  have h : k < p.length := by rw [hp.1]; exact hk
  rw [List.getD_eq_getElem?_getD, List.getElem?_eq_getElem h]
  exact hp.2.2 _ (List.getElem_mem h)

theorem isPerm_surj (n : Nat) (p : List Int) (hp : IsPerm n p) (k : Nat) (hk : k < n) :
    ∃ j < n, p.getD j 0 = k := by
  have h : (k : Int) ∈ p := (isPerm_perm n p hp).mem_iff.2 ((mem_arange n k).2 ⟨by omega, by omega⟩)
  obtain ⟨j, hj, he⟩ := List.getElem_of_mem h
  refine ⟨j, by rw [← hp.1]; exact hj, ?_⟩
  rw [List.getD_eq_getElem?_getD, List.getElem?_eq_getElem hj]
  exact he

theorem compose_length (p q : List Int) : (compose p q).length = p.length := by simp [compose]

theorem compose_assoc (n : Nat) (p q r : List Int) (hp : IsPerm n p) (hq : IsPerm n q) :
    compose p (compose q r) = compose (compose p q) r := by
  apply ext_getD n
  · rw [compose_length, hp.1]
  · rw [compose_length, compose_length, hp.1]
  · intro k hk
    have h1 := isPerm_getD n p hp k hk
    rw [compose_getD _ _ _ (by rw [hp.1]; exact hk), compose_getD _ _ _ (by rw [hq.1]; omega),
      compose_getD _ _ _ (by rw [compose_length, hp.1]; exact hk), compose_getD _ _ _ (by rw [hp.1]; exact hk)]

theorem compose_arange_left (n : Nat) (p : List Int) (hp : IsPerm n p) : compose (arange n) p = p := by
  apply ext_getD n _ _ (by rw [compose_length, (arange_isPerm n).1]) hp.1
  intro k hk
  rw [compose_getD _ _ _ (by rw [(arange_isPerm n).1]; exact hk), arange_getD n k hk]
  rfl

theorem compose_arange_right (n : Nat) (p : List Int) (hp : IsPerm n p) : compose p (arange n) = p := by
  apply ext_getD n _ _ (by rw [compose_length, hp.1]) hp.1
  intro k hk
  have h1 := isPerm_getD n p hp k hk
  rw [compose_getD _ _ _ (by rw [hp.1]; exact hk), arange_getD n _ (by omega)]
  omega

theorem compose_cancel (n : Nat) (p q r : List Int) (hp : IsPerm n p) (hq : q.length = n) (hr : r.length = n)
    (h : compose p q = compose p r) : q = r := by
  apply ext_getD n _ _ hq hr
  intro k hk
  obtain ⟨j, hj, he⟩ := isPerm_surj n p hp k hk
  have h1 : (compose p q).getD j 0 = (compose p r).getD j 0 := by rw [h]
  rw [compose_getD _ _ _ (by rw [hp.1]; exact hj), compose_getD _ _ _ (by rw [hp.1]; exact hj), he] at h1
  exact h1

theorem argsort_isPerm (n : Nat) (p : List Int) (hp : IsPerm n p) : IsPerm n (argsort p) := by
  apply isPerm_of_perm
  unfold argsort arange
  rw [← hp.1]
  exact (sortBy_perm _ _).map _

theorem argsort_left (n : Nat) (p : List Int) (hp : IsPerm n p) : compose (argsort p) p = arange n := by
  have hperm : (compose (argsort p) p).Perm (arange n) := by
    refine List.Perm.trans ?_ (isPerm_perm n p hp)
    unfold compose argsort
    rw [List.map_map]
    refine ((sortBy_perm _ _).map _).trans ?_
    have : (List.range p.length).map ((fun i : Int => p.getD i.toNat 0) ∘ fun k : Nat => (k : Int)) = p := by
      apply List.ext_getElem (by simp)
      intro k h1 h2
      simp only [List.getElem_map, List.getElem_range, Function.comp, Int.toNat_natCast]
      rw [List.getD_eq_getElem?_getD, List.getElem?_eq_getElem h2]
      rfl
    rw [this]
  have hs1 : (compose (argsort p) p).Pairwise (· ≤ ·) := by
    unfold compose argsort
    rw [List.map_map, List.pairwise_map]
    have := sortBy_pairwise (le := fun i j => decide (p.getD i 0 ≤ p.getD j 0))
      (fun a b c => by simp only [decide_eq_true_eq]; omega) (fun a b => by simp only [Bool.or_eq_true, decide_eq_true_eq]; omega)
      (List.range p.length)
    refine this.imp ?_
    intro a b h
    simpa using h
  have hs2 : (arange n).Pairwise (· ≤ ·) := by
    unfold arange
    rw [List.pairwise_map]
    refine (List.pairwise_lt_range).imp ?_
    intro a b h
    omega
  exact hperm.eq_of_pairwise (fun a b _ _ h1 h2 => by omega) hs1 hs2

theorem argsort_right (n : Nat) (p : List Int) (hp : IsPerm n p) : compose p (argsort p) = arange n := by
  have hq := argsort_isPerm n p hp
  apply compose_cancel n (argsort p) _ _ hq (by rw [compose_length, hp.1]) (arange_isPerm n).1
  rw [compose_assoc n _ p _ hq hp, argsort_left n p hp, compose_arange_left n _ hq, compose_arange_right n _ hq]

/-! ## Lookup -/

theorem lookup_spec (rows : List (List Int)) (k : List Int) :
    (∀ i, lookup rows k = .ok i → rows[i]? = some k) ∧ (k ∈ rows → ∃ i, lookup rows k = .ok i)
    ∧ (k ∉ rows → lookup rows k = .error .keyError) := by
  refine ⟨?_, ?_, ?_⟩
  · intro i h
    unfold lookup at h
    split_ifs at h with hm
    simp only [Except.ok.injEq] at h
    have hlt : rows.reverse.idxOf k < rows.length := by
      have := List.idxOf_lt_length_iff.2 (List.mem_reverse.2 hm)
      simpa using this
    have hget := List.getElem?_idxOf (List.mem_reverse.2 hm)
    rwa [List.getElem?_reverse hlt, h] at hget
  · intro h
    exact ⟨_, by unfold lookup; rw [if_pos h]⟩
  · intro h
    unfold lookup
    rw [if_neg h]

theorem lookupAll_spec (rows ks : List (List Int)) :
    (∀ is, lookupAll rows ks = .ok is → List.Forall₂ (fun i k => rows[i]? = some k) is ks)
    ∧ ((∀ k ∈ ks, k ∈ rows) → ∃ is, lookupAll rows ks = .ok is)
    ∧ ((∃ k ∈ ks, k ∉ rows) → lookupAll rows ks = .error .runtimeError) := by
  induction ks with
  | nil =>
    refine ⟨?_, fun _ => ⟨[], rfl⟩, by simp⟩
    intro is h
    simp only [lookupAll, Except.ok.injEq] at h
    subst h
    exact List.Forall₂.nil
  | cons k ks ih =>
    obtain ⟨i1, i2, i3⟩ := ih
    obtain ⟨l1, l2, l3⟩ := lookup_spec rows k
    refine ⟨?_, ?_, ?_⟩
    · intro is h
      rw [lookupAll] at h
      rcases hl : lookup rows k with e | i
      · rw [hl] at h; simp at h
      · rw [hl] at h
        rcases hr : lookupAll rows ks with e | is'
        · rw [hr] at h; simp at h
        · rw [hr] at h
          simp only [Except.ok.injEq] at h
          subst h
          exact List.Forall₂.cons (l1 i hl) (i1 is' hr)
    · intro h
      obtain ⟨i, hi⟩ := l2 (h k (by simp))
      obtain ⟨is, his⟩ := i2 fun k hk => h k (List.mem_cons_of_mem _ hk)
      exact ⟨i :: is, by rw [lookupAll, hi, his]⟩
    · rintro ⟨k', hk', hn⟩
      rw [lookupAll]
      by_cases hm : k ∈ rows
      · obtain ⟨i, hi⟩ := l2 hm
        rw [hi]
        rcases List.mem_cons.1 hk' with rfl | hk'
        · exact absurd hm hn
        · rw [i3 ⟨k', hk', hn⟩]
      · rw [l3 hm]

theorem forall2_get {α β : Type} {R : α → β → Prop} {l : List α} {m : List β} (h : List.Forall₂ R l m) (i : Nat) (b : β)
    (hb : m[i]? = some b) : ∃ a, l[i]? = some a ∧ R a b := by
  induction h generalizing i with
  | nil => simp at hb
  | cons hr _ ih =>
    cases i with
    | zero =>
      simp only [List.getElem?_cons_zero, Option.some.injEq] at hb
      subst hb
      exact ⟨_, rfl, hr⟩
    | succ i => exact ih i hb

theorem getD_of_getElem? (rows : List (List Int)) (i : Nat) (p : List Int) (h : rows[i]? = some p) : rows.getD i [] = p := by
  rw [List.getD_eq_getElem?_getD, h]; rfl

/-! ## C39 -/

/-- array form of `p @ q`: the array whose action on every vector is that of `q` followed by `p` (theorem `C38_permutation`). -/
theorem permProd_compose (n : Nat) (p q : List Int) (hp : IsPerm n p) (hq : IsPerm n q) :
    permProd p q = some (.ok (compose p q)) := by
  unfold permProd permAct
  rw [gather_ok q p (fun i hi => by rw [hq.1]; exact hp.2.2 i hi) 0]
  rfl

/-- `inverse`: entry `i` is the index of an element `h` with `g @ h` and `h @ g` equal to the identity; it exists unless some inverse
    is missing, which raises RuntimeError. -/
theorem C39_inverse (n : Nat) (rows : List (List Int)) (hrows : ∀ p ∈ rows, IsPerm n p) :
    (∀ inv, inverse rows = .ok inv → inv.length = rows.length ∧ ∀ (i : Nat) p, rows[i]? = some p →
      ∃ j q, inv[i]? = some j ∧ rows[j]? = some q ∧ permProd p q = some (.ok (arange n))
        ∧ permProd q p = some (.ok (arange n)))
    ∧ ((∀ p ∈ rows, ∃ q ∈ rows, permProd p q = some (.ok (arange n))) → ∃ inv, inverse rows = .ok inv)
    ∧ ((∃ p ∈ rows, ∀ q ∈ rows, permProd p q ≠ some (.ok (arange n))) → inverse rows = .error .runtimeError) := by
  obtain ⟨l1, l2, l3⟩ := lookupAll_spec rows (rows.map argsort)
  refine ⟨?_, ?_, ?_⟩
  · intro inv h
    have hf := l1 inv h
    refine ⟨by rw [hf.length_eq, List.length_map], ?_⟩
    intro i p hp
    obtain ⟨j, hj, hr⟩ := forall2_get hf i (argsort p) (by rw [List.getElem?_map, hp]; rfl)
    have hpp := hrows p (List.mem_of_getElem? hp)
    refine ⟨j, argsort p, hj, hr, ?_, ?_⟩
    · rw [permProd_compose n p _ hpp (argsort_isPerm n p hpp), argsort_right n p hpp]
    · rw [permProd_compose n _ p (argsort_isPerm n p hpp) hpp, argsort_left n p hpp]
  · intro h
    apply l2
    intro k hk
    obtain ⟨p, hp, rfl⟩ := List.mem_map.1 hk
    obtain ⟨q, hq, he⟩ := h p hp
    have hpp := hrows p hp
    have hqp := hrows q hq
    rw [permProd_compose n p q hpp hqp] at he
    simp only [Option.some.injEq, Except.ok.injEq] at he
    have : q = argsort p := by
      apply compose_cancel n p _ _ hpp hqp.1 (argsort_isPerm n p hpp).1
      rw [he, argsort_right n p hpp]
    exact this ▸ hq
  · rintro ⟨p, hp, h⟩
    apply l3
    refine ⟨argsort p, List.mem_map.2 ⟨p, hp, rfl⟩, ?_⟩
    intro hm
    have hpp := hrows p hp
    apply h _ hm
    rw [permProd_compose n p _ hpp (argsort_isPerm n p hpp), argsort_right n p hpp]

theorem tableRows_spec (rows : List (List Int)) (is : List Nat) :
    (∀ T, tableRows rows is = .ok T → List.Forall₂ (fun (t : List Nat) i =>
      List.Forall₂ (fun u (q : List Int) => rows[u]? = some (compose (rows.getD i []) q)) t rows) T is)
    ∧ ((∀ i ∈ is, ∀ q ∈ rows, compose (rows.getD i []) q ∈ rows) → ∃ T, tableRows rows is = .ok T)
    ∧ ((∃ i ∈ is, ∃ q ∈ rows, compose (rows.getD i []) q ∉ rows) → tableRows rows is = .error .runtimeError) := by
  induction is with
  | nil =>
    refine ⟨?_, fun _ => ⟨[], rfl⟩, by simp⟩
    intro T h
    simp only [tableRows, Except.ok.injEq] at h
    subst h
    exact List.Forall₂.nil
  | cons i is ih =>
    obtain ⟨i1, i2, i3⟩ := ih
    obtain ⟨l1, l2, l3⟩ := lookupAll_spec rows (rows.map fun q => compose (rows.getD i []) q)
    refine ⟨?_, ?_, ?_⟩
    · intro T h
      rw [tableRows] at h
      rcases hl : lookupAll rows (rows.map fun q => compose (rows.getD i []) q) with e | t
      · rw [hl] at h; simp at h
      · rw [hl] at h
        rcases hr : tableRows rows is with e | T'
        · rw [hr] at h; simp at h
        · rw [hr] at h
          simp only [Except.ok.injEq] at h
          subst h
          have := l1 t hl
          rw [List.forall₂_map_right_iff] at this
          exact List.Forall₂.cons this (i1 T' hr)
    · intro h
      obtain ⟨t, ht⟩ := l2 (by
        intro k hk
        obtain ⟨q, hq, rfl⟩ := List.mem_map.1 hk
        exact h i (by simp) q hq)
      obtain ⟨T, hT⟩ := i2 fun j hj => h j (List.mem_cons_of_mem _ hj)
      exact ⟨t :: T, by rw [tableRows, ht, hT]⟩
    · rintro ⟨j, hj, q, hq, hn⟩
      rw [tableRows]
      by_cases hall : ∀ q ∈ rows, compose (rows.getD i []) q ∈ rows
      · obtain ⟨t, ht⟩ := l2 (by
          intro k hk
          obtain ⟨q, hq, rfl⟩ := List.mem_map.1 hk
          exact hall q hq)
        rw [ht]
        rcases List.mem_cons.1 hj with rfl | hj
        · exact absurd (hall q hq) hn
        · rw [i3 ⟨j, hj, q, hq, hn⟩]
      · push Not at hall
        obtain ⟨q', hq', hn'⟩ := hall
        rw [l3 ⟨_, List.mem_map.2 ⟨q', hq', rfl⟩, hn'⟩]

/-- `product_table[g, h]` is the index of an element `u` with `g @ u = h`, that is `u = g⁻¹ h`. -/
theorem C39_product_table (n : Nat) (rows : List (List Int)) (hrows : ∀ p ∈ rows, IsPerm n p) (T : List (List Nat))
    (h : productTable rows = .ok T) : T.length = rows.length ∧ ∀ (g k : Nat) p q, rows[g]? = some p → rows[k]? = some q →
      ∃ t u r, T[g]? = some t ∧ t.length = rows.length ∧ t[k]? = some u ∧ rows[u]? = some r
        ∧ permProd p r = some (.ok q) := by
  unfold productTable at h
  obtain ⟨c1, _, _⟩ := C39_inverse n rows hrows
  rcases hi : inverse rows with e | inv
  · rw [hi] at h; simp at h
  · rw [hi] at h
    simp only at h
    obtain ⟨hlen, hinv⟩ := c1 inv hi
    have hf := (tableRows_spec rows inv).1 T h
    refine ⟨by rw [hf.length_eq, hlen], ?_⟩
    intro g k p q hp hq
    obtain ⟨j, pi, hj, hpi, _, e2⟩ := hinv g p hp
    obtain ⟨t, ht, hrow⟩ := forall2_get hf g j hj
    obtain ⟨u, hu, hr⟩ := forall2_get hrow k q hq
    rw [getD_of_getElem? rows j pi hpi] at hr
    have hpp := hrows p (List.mem_of_getElem? hp)
    have hqp := hrows q (List.mem_of_getElem? hq)
    have hip := hrows pi (List.mem_of_getElem? hpi)
    refine ⟨t, u, compose pi q, ht, hrow.length_eq, hu, hr, ?_⟩
    rw [permProd_compose n p _ hpp (compose_isPerm n pi q hip hqp), compose_assoc n p pi q hpp hip]
    rw [permProd_compose n pi p hip hpp] at e2
    simp only [Option.some.injEq, Except.ok.injEq] at e2
    have e1 : compose p pi = arange n := by
      have h1 : pi = argsort p := by
        have h2 : compose pi (compose p (argsort p)) = pi := by
          rw [argsort_right n p hpp, compose_arange_right n pi hip]
        rw [compose_assoc n pi p _ hip hpp, e2, compose_arange_left n _ (argsort_isPerm n p hpp)] at h2
        exact h2.symm
      rw [h1, argsort_right n p hpp]
    rw [e1, compose_arange_left n q hqp]

/-- a nonempty set of permutations closed under `@` has inverses and a product table. -/
theorem C39_closed (n : Nat) (rows : List (List Int)) (hrows : ∀ p ∈ rows, IsPerm n p)
    (hclosed : ∀ p ∈ rows, ∀ q ∈ rows, ∃ r ∈ rows, permProd p q = some (.ok r)) :
    (∃ inv, inverse rows = .ok inv) ∧ ∃ T, productTable rows = .ok T := by
  have hc : ∀ p ∈ rows, ∀ q ∈ rows, compose p q ∈ rows := by
    intro p hp q hq
    obtain ⟨r, hr, h⟩ := hclosed p hp q hq
    rw [permProd_compose n p q (hrows p hp) (hrows q hq)] at h
    simp only [Option.some.injEq, Except.ok.injEq] at h
    rw [h]; exact hr
  have hinv : ∀ p ∈ rows, argsort p ∈ rows := by
    intro p hp
    let S := {q : List Int // q ∈ rows.toFinset}
    let f : S → S := fun q => ⟨compose p q.1, List.mem_toFinset.2 (hc p hp q.1 (List.mem_toFinset.1 q.2))⟩
    have hf : Function.Injective f := by
      intro a b hab
      apply Subtype.ext
      have := congrArg Subtype.val hab
      exact compose_cancel n p _ _ (hrows p hp) (hrows _ (List.mem_toFinset.1 a.2)).1
        (hrows _ (List.mem_toFinset.1 b.2)).1 this
    have hs : Function.Surjective f := Finite.surjective_of_injective hf
    obtain ⟨⟨e, he⟩, h1⟩ := hs ⟨p, List.mem_toFinset.2 hp⟩
    have h1' : compose p e = p := congrArg Subtype.val h1
    have hem := List.mem_toFinset.1 he
    have hid : e = arange n := by
      apply compose_cancel n p _ _ (hrows p hp) (hrows e hem).1 (arange_isPerm n).1
      rw [h1', compose_arange_right n p (hrows p hp)]
    obtain ⟨⟨i, hi⟩, h2⟩ := hs ⟨e, he⟩
    have h2' : compose p i = e := congrArg Subtype.val h2
    have him := List.mem_toFinset.1 hi
    have : i = argsort p := by
      apply compose_cancel n p _ _ (hrows p hp) (hrows i him).1 (argsort_isPerm n p (hrows p hp)).1
      rw [h2', hid, argsort_right n p (hrows p hp)]
    exact this ▸ him
  obtain ⟨inv, h⟩ := (lookupAll_spec rows (rows.map argsort)).2.1 (by
    intro k hk
    obtain ⟨p, hp, rfl⟩ := List.mem_map.1 hk
    exact hinv p hp)
  have hok : inverse rows = .ok inv := h
  refine ⟨⟨inv, hok⟩, ?_⟩
  have hf := (lookupAll_spec rows (rows.map argsort)).1 inv h
  obtain ⟨T, hT⟩ := (tableRows_spec rows inv).2.1 (by
    intro i hi q hq
    obtain ⟨k, hk⟩ := List.mem_iff_getElem?.1 hi
    have hlt : k < rows.length := by
      have := (List.getElem?_eq_some_iff.1 hk).1
      have h2 := hf.length_eq
      rw [List.length_map] at h2
      omega
    obtain ⟨j, hj, hr⟩ := forall2_get hf k (argsort rows[k]) (by
      rw [List.getElem?_map, List.getElem?_eq_getElem hlt]; rfl)
    rw [hk] at hj
    obtain rfl := Option.some.inj hj
    rw [getD_of_getElem? rows i _ hr]
    exact hc _ (List.mem_of_getElem? hr) q hq)
  exact ⟨T, by unfold productTable; rw [hok]; exact hT⟩

/-- a set that is not closed is rejected with a RuntimeError. -/
theorem C39_unclosed (n : Nat) (rows : List (List Int)) (hrows : ∀ p ∈ rows, IsPerm n p)
    (hun : ∃ p ∈ rows, ∃ q ∈ rows, ∀ r ∈ rows, permProd p q ≠ some (.ok r)) :
    productTable rows = .error .runtimeError := by
  obtain ⟨p, hp, q, hq, hr⟩ := hun
  have hn : compose p q ∉ rows := by
    intro hm
    exact hr _ hm (permProd_compose n p q (hrows p hp) (hrows q hq))
  obtain ⟨c1, c2, c3⟩ := C39_inverse n rows hrows
  unfold productTable
  by_cases hall : ∀ p ∈ rows, ∃ q ∈ rows, permProd p q = some (.ok (arange n))
  · obtain ⟨inv, hi⟩ := c2 hall
    rw [hi]
    simp only
    apply (tableRows_spec rows inv).2.2
    -- the inverse of the inverse of p is p
    obtain ⟨q', hq', he⟩ := hall p hp
    obtain ⟨j, hj⟩ := List.mem_iff_getElem?.1 hq'
    obtain ⟨k, r', hk, hkr, h1, h2⟩ := (c1 inv hi).2 j q' hj
    refine ⟨k, List.mem_of_getElem? hk, q, hq, ?_⟩
    rw [getD_of_getElem? rows k r' hkr]
    have hpp := hrows p hp
    have hqp := hrows q' hq'
    have hrp := hrows r' (List.mem_of_getElem? hkr)
    rw [permProd_compose n p q' hpp hqp] at he
    rw [permProd_compose n q' r' hqp hrp] at h1
    simp only [Option.some.injEq, Except.ok.injEq] at he h1
    have : r' = p := by
      have h3 : compose p (compose q' r') = p := by rw [h1, compose_arange_right n p hpp]
      rw [compose_assoc n p q' r' hpp hqp, he, compose_arange_left n r' hrp] at h3
      exact h3
    rw [this]
    exact hn
  · push Not at hall
    rw [c3 hall]

/-- the cyclic group of order three. -/
example : productTable [[0, 1, 2], [1, 2, 0], [2, 0, 1]] = .ok [[0, 1, 2], [2, 0, 1], [1, 2, 0]]
    ∧ inverse [[0, 1, 2], [1, 2, 0], [2, 0, 1]] = .ok [0, 2, 1] := by decide +kernel
example : productTable [[0, 1, 2], [1, 2, 0]] = .error .runtimeError := by decide +kernel

/-! ## C40 -/

theorem lexLe_total (a b : List Int) : (lexLe a b || lexLe b a) = true := by
  induction a generalizing b with
  | nil => cases b <;> rfl
  | cons x xs ih =>
    cases b with
    | nil => rfl
    | cons y ys =>
      rw [lexLe, lexLe]
      have := ih ys
      rcases lt_trichotomy x y with h | h | h
      · simp [h]
      · subst h; simpa using this
      · simp [h]

theorem lexLe_trans (a b c : List Int) : lexLe a b = true → lexLe b c = true → lexLe a c = true := by
  induction a generalizing b c with
  | nil => intro _ _; cases c <;> rfl
  | cons x xs ih =>
    cases b with
    | nil => intro h; simp [lexLe] at h
    | cons y ys =>
      cases c with
      | nil => intro _ h; simp [lexLe] at h
      | cons z zs =>
        simp only [lexLe, Bool.or_eq_true, Bool.and_eq_true, decide_eq_true_eq]
        rintro (h1 | ⟨rfl, h1⟩) (h2 | ⟨rfl, h2⟩)
        · left; omega
        · left; exact h1
        · left; exact h2
        · right; exact ⟨rfl, ih ys zs h1 h2⟩

theorem lexLe_antisymm (a b : List Int) : lexLe a b = true → lexLe b a = true → a = b := by
  induction a generalizing b with
  | nil => cases b <;> simp [lexLe]
  | cons x xs ih =>
    cases b with
    | nil => simp [lexLe]
    | cons y ys =>
      simp only [lexLe, Bool.or_eq_true, Bool.and_eq_true, decide_eq_true_eq]
      rintro (h1 | ⟨rfl, h1⟩) (h2 | ⟨h3, h2⟩)
      · omega
      · omega
      · omega
      · rw [ih ys h1 h2]

theorem uniqueRows_nodup (rows : List (List Int)) : (uniqueRows rows).Nodup :=
  (sortBy_perm _ _).nodup_iff.2 (List.nodup_dedup rows)

theorem mem_uniqueRows (rows : List (List Int)) (r : List Int) : r ∈ uniqueRows rows ↔ r ∈ rows := by
  rw [uniqueRows, mem_sortBy, List.mem_dedup]

theorem mem_uniqueIndex (rows : List (List Int)) (i : Nat) :
    i ∈ uniqueIndex rows ↔ i < rows.length ∧ ∀ j < i, rows[j]? ≠ rows[i]? := by
  unfold uniqueIndex
  rw [List.mem_map]
  constructor
  · rintro ⟨r, hr, rfl⟩
    rw [mem_uniqueRows] at hr
    refine ⟨List.idxOf_lt_length_iff.2 hr, ?_⟩
    intro j hj he
    rw [List.getElem?_idxOf hr] at he
    have hj' := (List.getElem?_eq_some_iff.1 he)
    obtain ⟨hl, he'⟩ := hj'
    have hx := List.not_of_lt_findIdx (p := fun x => x == r) (xs := rows) hj
    rw [he'] at hx
    simp at hx
  · rintro ⟨hi, h⟩
    refine ⟨rows[i], (mem_uniqueRows rows _).2 (List.getElem_mem hi), ?_⟩
    rcases Nat.lt_trichotomy (rows.idxOf rows[i]) i with h1 | h1 | h1
    · exfalso
      apply h _ h1
      rw [List.getElem?_idxOf (List.getElem_mem hi), List.getElem?_eq_getElem hi]
    · exact h1
    · exfalso
      have hx := List.not_of_lt_findIdx (p := fun x => x == rows[i]) (xs := rows) h1
      simp at hx

theorem uniqueIndex_nodup (rows : List (List Int)) : (uniqueIndex rows).Nodup := by
  unfold uniqueIndex
  refine List.Nodup.map_on ?_ (uniqueRows_nodup rows)
  intro a ha b hb hab
  rw [mem_uniqueRows] at ha hb
  have h1 := List.getElem?_idxOf ha
  have h2 := List.getElem?_idxOf hb
  rw [hab, h2] at h1
  exact (Option.some.inj h1).symm

/-- `remove_duplicates` keeps, in their order, exactly the elements whose canonical form has not occurred before: the result lists
    the elements at an increasing sequence of positions, namely the first occurrences. -/
theorem C40_first_occurrences {E : Type} (elems : List E) (rows : List (List Int)) (hlen : rows.length = elems.length) :
    ∃ idx : List Nat, idx.Pairwise (· < ·) ∧ (removeDuplicates elems rows).1.map some = idx.map (fun i => elems[i]?)
      ∧ ∀ i, i ∈ idx ↔ i < elems.length ∧ ∀ j < i, rows[j]? ≠ rows[i]? := by
  set idx := sortBy (fun i j => decide (i ≤ j)) (uniqueIndex rows) with hidx
  have hmem : ∀ i, i ∈ idx ↔ i < elems.length ∧ ∀ j < i, rows[j]? ≠ rows[i]? := by
    intro i
    rw [hidx, mem_sortBy, mem_uniqueIndex, hlen]
  have hlt : idx.Pairwise (· < ·) := by
    have h1 := sortBy_pairwise (le := fun i j : Nat => decide (i ≤ j))
      (fun a b c => by simp only [decide_eq_true_eq]; omega)
      (fun a b => by simp only [Bool.or_eq_true, decide_eq_true_eq]; omega) (uniqueIndex rows)
    have h2 : idx.Nodup := (sortBy_perm _ _).nodup_iff.2 (uniqueIndex_nodup rows)
    refine (h1.and h2).imp ?_
    rintro a b ⟨h3, h4⟩
    simp only [decide_eq_true_eq] at h3
    omega
  refine ⟨idx, hlt, ?_, hmem⟩
  have hin : ∀ i ∈ idx, i < elems.length := fun i hi => ((hmem i).1 hi).1
  show (idx.filterMap fun i => elems[i]?).map some = _
  clear_value idx
  clear hmem hlt hidx
  induction idx with
  | nil => rfl
  | cons i r ih =>
    have hi := hin i (by simp)
    rw [List.filterMap_cons, List.getElem?_eq_getElem hi]
    simp only [List.map_cons, List.getElem?_eq_getElem hi]
    rw [ih fun j hj => hin j (List.mem_cons_of_mem _ hj)]

/-- hence the canonical forms of the result are distinct and are those of the argument. -/
theorem C40_distinct {E : Type} (canon : E → List Int) (elems : List E) :
    ((removeDuplicates elems (elems.map canon)).1.map canon).Nodup
    ∧ (∀ r, r ∈ (removeDuplicates elems (elems.map canon)).1.map canon ↔ r ∈ elems.map canon)
    ∧ (removeDuplicates elems (elems.map canon)).1.Sublist elems := by
  obtain ⟨idx, hlt, hres, hmem⟩ := C40_first_occurrences elems (elems.map canon) (by simp)
  set R := (removeDuplicates elems (elems.map canon)).1
  have hmapsome : (R.map canon).map some = idx.map fun i => (elems.map canon)[i]? := by
    have := congrArg (List.map (Option.map canon)) hres
    rw [List.map_map, List.map_map] at this
    rw [List.map_map]
    simp only [List.getElem?_map]
    exact this
  refine ⟨?_, ?_, ?_⟩
  · have : ((R.map canon).map some).Nodup := by
      rw [hmapsome]
      unfold List.Nodup
      rw [List.pairwise_map]
      refine List.Pairwise.imp_of_mem ?_ hlt
      intro a b ha hb hab he
      exact ((hmem b).1 hb).2 a hab he
    exact List.Nodup.of_map _ this
  · intro r
    have h1 : r ∈ R.map canon ↔ some r ∈ (R.map canon).map some := by
      rw [List.mem_map_of_injective (Option.some_injective _)]
    rw [h1, hmapsome, List.mem_map]
    constructor
    · rintro ⟨i, _, h⟩
      exact List.mem_of_getElem? h
    · intro h
      refine ⟨(elems.map canon).idxOf r, ?_, List.getElem?_idxOf h⟩
      rw [hmem]
      have hlt' := List.idxOf_lt_length_iff.2 h
      rw [List.length_map] at hlt'
      refine ⟨hlt', ?_⟩
      have := (mem_uniqueIndex (elems.map canon) ((elems.map canon).idxOf r)).1
        (List.mem_map.2 ⟨r, (mem_uniqueRows _ _).2 h, rfl⟩)
      exact this.2
  · have hs : (R.map some).Sublist (elems.map some) := by
      rw [hres]
      have h1 : elems.map some = (List.range elems.length).map fun i => elems[i]? := by
        apply List.ext_getElem (by simp)
        intro k h1 h2
        simp only [List.getElem_map, List.getElem_range]
        rw [List.getElem?_eq_getElem]
      rw [h1]
      apply List.Sublist.map
      have hsub : ∀ (n : Nat) (idx : List Nat), idx.Pairwise (· < ·) → (∀ i ∈ idx, i < n) → idx.Sublist (List.range n) := by
        intro n idx h2 h3
        have : idx = (List.range n).filter (fun i => decide (i ∈ idx)) := by
          apply List.Perm.eq_of_pairwise (le := fun a b : Nat => a < b) (fun a b _ _ h4 h5 => by omega) h2
            (List.Pairwise.filter _ List.pairwise_lt_range)
          rw [List.perm_ext_iff_of_nodup (h2.imp fun h => Nat.ne_of_lt h) (List.Nodup.filter _ List.nodup_range)]
          intro a
          simp only [List.mem_filter, List.mem_range, decide_eq_true_eq]
          exact ⟨fun h => ⟨h3 a h, h⟩, fun h => h.2⟩
        rw [this]
        exact List.filter_sublist
      exact hsub _ idx hlt fun i hi => ((hmem i).1 hi).1
    have hf := hs.filterMap id
    simpa using hf

/-- the indices returned with `return_inverse` refer to the canonical forms in lexicographic order. -/
theorem C40_inverse_sorted (rows : List (List Int)) :
    (uniqueInverse rows).length = rows.length ∧ (uniqueRows rows).Pairwise (fun a b => lexLe a b = true)
    ∧ ∀ (i : Nat) r, rows[i]? = some r → ∃ k, (uniqueInverse rows)[i]? = some k ∧ (uniqueRows rows)[k]? = some r := by
  refine ⟨by simp [uniqueInverse], sortBy_pairwise lexLe_trans lexLe_total _, ?_⟩
  intro i r h
  refine ⟨(uniqueRows rows).idxOf r, ?_, List.getElem?_idxOf ((mem_uniqueRows rows r).2 (List.mem_of_getElem? h))⟩
  rw [uniqueInverse, List.getElem?_map, h]
  rfl

/-- they reconstruct the argument if the result happens to be in lexicographic order. -/
theorem C116_reconstruct_partial {E : Type} (canon : E → List Int) (elems : List E)
    (hsorted : ((removeDuplicates elems (elems.map canon)).1.map canon).Pairwise (fun a b => lexLe a b = true))
    (i : Nat) (e : E) (h : elems[i]? = some e) :
    ∃ k e', (removeDuplicates elems (elems.map canon)).2[i]? = some k
      ∧ (removeDuplicates elems (elems.map canon)).1[k]? = some e' ∧ canon e' = canon e := by
  obtain ⟨hnd, hmem, _⟩ := C40_distinct canon elems
  have heq : (removeDuplicates elems (elems.map canon)).1.map canon = uniqueRows (elems.map canon) := by
    apply List.Perm.eq_of_pairwise (le := fun a b => lexLe a b = true) (fun a b _ _ => lexLe_antisymm a b) hsorted
      (sortBy_pairwise lexLe_trans lexLe_total _)
    show List.Perm _ (uniqueRows (elems.map canon))
    rw [List.perm_ext_iff_of_nodup hnd (uniqueRows_nodup _)]
    intro r
    rw [hmem, mem_uniqueRows]
  obtain ⟨k, h1, h2⟩ := (C40_inverse_sorted (elems.map canon)).2.2 i (canon e) (by rw [List.getElem?_map, h]; rfl)
  rw [← heq, List.getElem?_map, Option.map_eq_some_iff] at h2
  obtain ⟨e', h3, h4⟩ := h2
  exact ⟨k, e', h1, h3, h4⟩

/-- in general they do not: for the swap and the identity, in this order, nothing is removed but the indices are exchanged. -/
theorem C116_reconstruct_refuted :
    ¬ ∀ (elems : List (List Int)) (i : Nat) (e : List Int), elems[i]? = some e →
      ∃ k, (removeDuplicates elems elems).2[i]? = some k ∧ (removeDuplicates elems elems).1[k]? = some e := by
  intro h
  obtain ⟨k, h1, h2⟩ := h [[1, 0], [0, 1]] 0 [1, 0] rfl
  have h3 : (removeDuplicates [[(1 : Int), 0], [0, 1]] [[1, 0], [0, 1]]).2[0]? = some 1
      ∧ (removeDuplicates [[(1 : Int), 0], [0, 1]] [[1, 0], [0, 1]]).1[1]? = some [0, 1] := by decide +kernel
  rw [h3.1] at h1
  obtain rfl := Option.some.inj h1
  rw [h3.2] at h2
  simp at h2

example : removeDuplicates [20, 0, 21, 10] [[2], [0], [2], [1]] = ([20, 0, 10], [2, 0, 2, 1]) := by
  decide +kernel

end Verif.Grp
