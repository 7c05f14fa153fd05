import Verif.Lemmas.Lattice

/-! The lattice built by the constructor: its coordinates and edges. -/

set_option linter.unusedSectionVars false
set_option linter.unusedVariables false

namespace Verif.Lat
open Verif.Hilbert (Err)

/-- the nearest pairs of the shell that touch the lattice proper, seen on the torus. -/
def TrueNeighbour (ext : List Nat) (pbc : List Bool) (nb : Nat) (near : List Int → List Int → Option Int)
    (u v : List Int) : Prop :=
  ∃ c ∈ shell ext pbc nb, ∃ c' ∈ shell ext pbc nb, (inside ext c = true ∨ inside ext c' = true)
    ∧ Closest near (shell ext pbc nb) c c' ∧ wrap ext c = u ∧ wrap ext c' = v

theorem map_filter_idx {α : Type} (l : List α) (d : α) (p : Nat → Bool) (q : α → Bool)
    (h : ∀ (i : Nat) a, l[i]? = some a → p i = q a) :
    ((List.range l.length).filter p).map (fun i => l.getD i d) = l.filter q := by
  induction l using List.reverseRecOn with
  | nil => rfl
  | append_singleton l x ih =>
    rw [List.length_append, List.length_singleton, List.range_succ, List.filter_append, List.map_append,
      List.filter_append]
    congr 1
    · rw [← ih]
      · apply List.map_congr_left
        intro i hi
        have := List.mem_range.1 (List.mem_filter.1 hi).1
        rw [List.getD_append _ _ _ _ this]
      · intro i a ha
        apply h i a
        rw [List.getElem?_append_left (List.getElem?_eq_some_iff.1 ha).1, ha]
    · have hx := h l.length x (by simp)
      by_cases hp : q x = true
      · rw [hp] at hx
        rw [List.filter_cons_of_pos hx, List.filter_cons_of_pos hp]
        simp
      · rw [Bool.not_eq_true] at hp
        rw [hp] at hx
        rw [List.filter_cons_of_neg (by simp [hx]), List.filter_cons_of_neg (by simp [hp])]
        rfl

theorem idxOf_map_getD {α : Type} [DecidableEq α] (l : List α) (d : α) (hnd : l.Nodup) (old : List Nat)
    (ho : ∀ i ∈ old, i < l.length) (hond : old.Nodup) (i : Nat) (hi : i ∈ old) :
    (old.map fun i => l.getD i d)[old.idxOf i]? = some (l.getD i d) := by
  rw [List.getElem?_map, List.getElem?_idxOf hi]
  rfl

section
variable (near : List Int → List Int → Option Int) (hsym : ∀ a b, near a b = near b a) (hirr : ∀ a, near a a = none)
include hsym hirr

/-- what the constructor builds when each site of the lattice belongs to a nearest pair. -/
theorem mkLattice_spec (ext : List Nat) (pbc : List Bool) (nb : Nat) (hlen : ext.length = pbc.length)
    (hpos : ∀ e ∈ ext, 0 < e) (hnb : 0 < nb)
    (hall : ∀ u ∈ inner ext nb, ∃ c ∈ shell ext pbc nb, Closest near (shell ext pbc nb) u c) :
    ∃ L, mkLattice ext pbc nb near = .ok L ∧ L.basisCoords = inner ext nb ∧ Simple L.edges
      ∧ (∀ e ∈ L.edges, e.1 < L.basisCoords.length ∧ e.2 < L.basisCoords.length)
      ∧ ∀ (a b : Nat) (u v : List Int), L.basisCoords[a]? = some u → L.basisCoords[b]? = some v →
        (has L.edges a b ↔ u ≠ v ∧ TrueNeighbour ext pbc nb near u v) := by
  have hnd := shell_nodup ext pbc nb
  have hwi := wrap_mem ext pbc nb hlen hpos
  have hwm : ∀ c ∈ shell ext pbc nb, wrap ext c ∈ shell ext pbc nb :=
    fun c hc => ((inner_subset ext pbc nb hlen _).1 (hwi c hc)).1
  have hT := has_trueEdges near hsym hirr ext (shell ext pbc nb) hnd hwm
  set cs := shell ext pbc nb with hcs
  set T := trueEdges ext near cs with hTd
  set old := oldNodes cs.length T with hold
  have hmem : ∀ (i : Nat) c, cs[i]? = some c → (i ∈ old ↔ inside ext c = true) := by
    intro i c hi
    have hic := List.mem_of_getElem? hi
    rw [hold, mem_oldNodes]
    constructor
    · rintro ⟨_, j, h⟩
      obtain ⟨x, hx, y, hy, _, _, h3, _⟩ := (hT i j).1 h
      rw [hi] at h3
      obtain rfl := Option.some.inj h3
      exact ((inner_subset ext pbc nb hlen _).1 (hwi x hx)).2
    · intro hin
      obtain ⟨c', hc', hcl⟩ := hall c ((inner_subset ext pbc nb hlen c).2 ⟨hic, hin⟩)
      obtain ⟨j, hj⟩ := List.mem_iff_getElem?.1 (hwm c' hc')
      refine ⟨(List.getElem?_eq_some_iff.1 hi).1, j, (hT i j).2 ⟨c, hic, c', hc', Or.inl hin, hcl, ?_, hj⟩⟩
      rw [wrap_inside ext c hin, hi]
  have hcoords : (old.map fun i => cs.getD i []) = inner ext nb := by
    rw [← filter_shell ext pbc nb hlen, hold, oldNodes]
    apply map_filter_idx
    intro i c hi
    have h1 := hmem i c hi
    rw [hold, oldNodes, List.mem_filter] at h1
    have h2 := List.mem_range.2 (List.getElem?_eq_some_iff.1 hi).1
    simp only [h2, true_and] at h1
    exact Bool.eq_iff_iff.2 h1
  have holt : ∀ i ∈ old, i < cs.length := fun i hi => ((mem_oldNodes _ _ _).1 hi).1
  have hond : old.Nodup := List.Nodup.filter _ List.nodup_range
  have hne : old ≠ [] := by
    intro h0
    rw [h0, List.map_nil] at hcoords
    have : ∃ c, c ∈ inner ext nb := by
      rw [inner]
      have : ∀ es : List Nat, (∀ e ∈ es, 0 < e) → ∃ c, c ∈ cart (es.map upto ++ [upto nb]) := by
        intro es
        induction es with
        | nil =>
          intro _
          exact ⟨[0], (mem_cart_cons _ _ _).2 ⟨0, [], rfl, (mem_upto _ _).2 ⟨le_refl _, by omega⟩, by simp [cart]⟩⟩
        | cons e es ih =>
          intro h
          obtain ⟨c, hc⟩ := ih fun e he => h e (List.mem_cons_of_mem _ he)
          have := h e (by simp)
          exact ⟨0 :: c, (mem_cart_cons _ _ _).2 ⟨0, c, rfl, (mem_upto _ _).2 ⟨le_refl _, by omega⟩, hc⟩⟩
      exact this ext hpos
    obtain ⟨c, hc⟩ := this
    rw [← hcoords] at hc
    simp at hc
  have hend : ∀ a b, has T a b → a ∈ old ∧ b ∈ old := by
    intro a b h
    have ha : ∀ a b, has T a b → a < cs.length := by
      intro a b h
      obtain ⟨x, hx, y, hy, _, _, h3, h4⟩ := (hT a b).1 h
      exact (List.getElem?_eq_some_iff.1 h3).1
    exact ⟨(mem_oldNodes _ _ _).2 ⟨ha a b h, b, h⟩,
      (mem_oldNodes _ _ _).2 ⟨ha b a ((has_comm _ _ _).1 h), a, (has_comm _ _ _).1 h⟩⟩
  set f : Nat × Nat → Nat × Nat := fun e => (old.idxOf e.1, old.idxOf e.2) with hf
  have hr : mkLattice ext pbc nb near = .ok { basisCoords := inner ext nb, edges := simplify [] (T.map f) } := by
    unfold mkLattice
    simp only
    rw [if_neg hne]
    congr 2
  refine ⟨_, hr, rfl, simplify_simple _ [] ⟨by simp, List.Pairwise.nil⟩, ?_, ?_⟩
  · intro e he
    rcases simplify_subset _ _ e he with h | h
    · simp at h
    · obtain ⟨e', he', rfl⟩ := List.mem_map.1 h
      have := hend e'.1 e'.2 (Or.inl he')
      simp only [← hcoords, List.length_map]
      exact ⟨List.idxOf_lt_length_iff.2 this.1, List.idxOf_lt_length_iff.2 this.2⟩
  · intro a b u v hu hv
    simp only at hu hv ⊢
    have hind := inner_nodup ext nb
    by_cases huv : u = v
    · subst huv
      have : a = b := by
        obtain ⟨h1, h2⟩ := List.getElem?_eq_some_iff.1 hu
        obtain ⟨h3, h4⟩ := List.getElem?_eq_some_iff.1 hv
        exact (hind.getElem_inj_iff).1 (h2.trans h4.symm)
      subst this
      simp only [ne_eq, not_true_eq_false, false_and, iff_false]
      have := (simplify_simple (T.map f) [] ⟨by simp, List.Pairwise.nil⟩).1
      rintro (h | h) <;> exact this _ h rfl
    · have hab : a ≠ b := by
        rintro rfl
        rw [hu] at hv
        exact huv (Option.some.inj hv)
      rw [simplify_has _ a b hab]
      have h0 : ¬has [] a b := by simp [has]
      simp only [h0, false_or, ne_eq, huv, not_false_eq_true, true_and]
      -- indices in the shell
      have hlook : ∀ (a : Nat) (u : List Int), (inner ext nb)[a]? = some u → ∃ i, old[a]? = some i ∧ cs[i]? = some u := by
        intro a u hu
        rw [← hcoords, List.getElem?_map, Option.map_eq_some_iff] at hu
        obtain ⟨i, hi, hg⟩ := hu
        refine ⟨i, hi, ?_⟩
        have := holt i (List.mem_of_getElem? hi)
        rw [List.getD_eq_getElem _ _ this] at hg
        rw [List.getElem?_eq_getElem this, hg]
      obtain ⟨i, hi, hci⟩ := hlook a u hu
      obtain ⟨j, hj, hcj⟩ := hlook b v hv
      have hidx : ∀ (a i : Nat), old[a]? = some i → ∀ k ∈ old, (old.idxOf k = a ↔ k = i) := by
        intro a i hi k hk
        obtain ⟨h1, h2⟩ := List.getElem?_eq_some_iff.1 hi
        constructor
        · rintro rfl
          rw [List.getElem?_idxOf hk] at hi
          exact Option.some.inj hi
        · rintro rfl
          subst h2
          exact List.Nodup.idxOf_getElem hond a h1
      have hmap : has (T.map f) a b ↔ has T i j := by
        unfold has
        simp only [List.mem_map]
        have key : ∀ a b i j, old[a]? = some i → old[b]? = some j →
            ((∃ e ∈ T, f e = (a, b)) ↔ (i, j) ∈ T) := by
          intro a b i j hi hj
          constructor
          · rintro ⟨e, he, h⟩
            have ho := hend e.1 e.2 (Or.inl he)
            simp only [hf, Prod.mk.injEq] at h
            rw [hidx a i hi _ ho.1, hidx b j hj _ ho.2] at h
            rw [← h.1, ← h.2]
            exact he
          · intro he
            have ho := hend i j (Or.inl he)
            refine ⟨(i, j), he, ?_⟩
            simp only [hf, Prod.mk.injEq]
            exact ⟨(hidx a i hi _ ho.1).2 rfl, (hidx b j hj _ ho.2).2 rfl⟩
        rw [key a b i j hi hj, key b a j i hj hi]
      rw [hmap, hT i j, hci, hcj]
      unfold TrueNeighbour
      simp only [Option.some.injEq]
      constructor
      · rintro ⟨c, hc, c', hc', h1, h2, h3, h4⟩
        exact ⟨c, hc, c', hc', h1, h2, h3.symm, h4.symm⟩
      · rintro ⟨c, hc, c', hc', h1, h2, h3, h4⟩
        exact ⟨c, hc, c', hc', h1, h2, h3.symm, h4.symm⟩

end

end Verif.Lat
