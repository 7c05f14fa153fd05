import Verif.Model.LegacyTree

/-! C237: a flat update cut into the shapes of the parameters. C238: updates of the wrong length. -/

namespace Verif.LegacyTree

open Verif.Hilbert (Err)

theorem reshapeLoop_ok {R : Type} (update : List R) (shapes : List (List Nat)) :
    ∀ k, k + (shapes.map List.prod).sum ≤ update.length →
      ∃ l, reshapeLoop update k shapes = .ok l ∧ l.map Arr.shape = shapes ∧
        (∀ a ∈ l, a.data.length = a.shape.prod) ∧
        l.flatMap Arr.data = (update.drop k).take (shapes.map List.prod).sum := by
  induction shapes with
  | nil => intro k _; exact ⟨[], rfl, rfl, by simp, by simp⟩
  | cons s ss ih =>
    intro k hk
    rw [List.map_cons, List.sum_cons] at hk
    obtain ⟨l, h1, h2, h3, h4⟩ := ih (k + s.prod) (by omega)
    have hl : ((update.take (k + s.prod)).drop k).length = s.prod := by
      rw [List.length_drop, List.length_take]; omega
    refine ⟨⟨s, (update.take (k + s.prod)).drop k⟩ :: l, ?_, ?_, ?_, ?_⟩
    · simp only [reshapeLoop, hl, if_true, h1]
    · rw [List.map_cons, h2]
    · intro a ha
      rcases List.mem_cons.mp ha with rfl | ha
      · exact hl
      · exact h3 a ha
    · rw [List.flatMap_cons, h4, List.map_cons, List.sum_cons]
      dsimp only
      rw [← List.take_drop, ← List.drop_drop, ← List.take_add]

theorem reshapeLoop_short {R : Type} (update : List R) (shapes : List (List Nat)) :
    ∀ k, k ≤ update.length → update.length < k + (shapes.map List.prod).sum →
      reshapeLoop update k shapes = .error .typeError := by
  induction shapes with
  | nil => intro k h1 h2; simp at h2; omega
  | cons s ss ih =>
    intro k h1 h2
    rw [List.map_cons, List.sum_cons] at h2
    have hl : ((update.take (k + s.prod)).drop k).length = min (k + s.prod) update.length - k := by
      rw [List.length_drop, List.length_take]
    by_cases hc : k + s.prod ≤ update.length
    · have e : ((update.take (k + s.prod)).drop k).length = s.prod := by rw [hl]; omega
      simp only [reshapeLoop, e, if_true, ih (k + s.prod) hc (by omega)]
    · have e : ((update.take (k + s.prod)).drop k).length ≠ s.prod := by rw [hl]; omega
      simp only [reshapeLoop, e, if_false]

/-- C237: an update with as many entries as there are parameters is distributed over arrays with the shapes of the
parameters, in order, every entry once. -/
theorem C237_reshape {R : Type} (update : List R) (shapes : List (List Nat))
    (h : update.length = (shapes.map List.prod).sum) :
    ∃ l, shapeForUpdate update shapes = .ok l ∧ l.map Arr.shape = shapes ∧
      (∀ a ∈ l, a.data.length = a.shape.prod) ∧ l.flatMap Arr.data = update := by
  obtain ⟨l, h1, h2, h3, h4⟩ := reshapeLoop_ok update shapes 0 (by omega)
  refine ⟨l, h1, h2, h3, ?_⟩
  rw [h4, ← h, List.drop_zero, List.take_length]

/-- C237: reshaping the concatenated entries of a tree gives the tree back. -/
theorem C237_round {R : Type} (l : List (Arr R)) (hl : ∀ a ∈ l, a.data.length = a.shape.prod) :
    shapeForUpdate (l.flatMap Arr.data) (l.map Arr.shape) = .ok l := by
  have hlen : (l.flatMap Arr.data).length = ((l.map Arr.shape).map List.prod).sum := by
    induction l with
    | nil => rfl
    | cons a l ih =>
      rw [List.flatMap_cons, List.length_append, ih fun b hb => hl b (List.mem_cons_of_mem _ hb), hl a List.mem_cons_self]
      rfl
  obtain ⟨l', h1, h2, h3, h4⟩ := C237_reshape _ _ hlen
  rw [h1]
  congr 1
  clear h1 hlen
  induction l generalizing l' with
  | nil => simpa using h2
  | cons a l ih =>
    cases l' with
    | nil => simp at h2
    | cons b l' =>
      rw [List.map_cons, List.map_cons, List.cons.injEq] at h2
      rw [List.flatMap_cons, List.flatMap_cons] at h4
      have hd : b.data.length = a.data.length := by
        rw [h3 b List.mem_cons_self, hl a List.mem_cons_self, h2.1]
      obtain ⟨e1, e2⟩ := List.append_inj h4 hd
      rw [ih (fun c hc => hl c (List.mem_cons_of_mem _ hc)) l' h2.2 (fun c hc => h3 c (List.mem_cons_of_mem _ hc)) e2]
      congr 1
      cases a; cases b
      simp_all

/-- C237: an update that is too short raises. -/
theorem C237_short {R : Type} (update : List R) (shapes : List (List Nat))
    (h : update.length < (shapes.map List.prod).sum) : shapeForUpdate update shapes = .error .typeError :=
  reshapeLoop_short update shapes 0 (Nat.zero_le _) (by omega)

example : [1, 2, 3, 4, 5, 6, 7].length = ([[2, 3], []].map List.prod).sum := by decide
example : shapeForUpdate [1, 2, 3, 4, 5, 6, 7] [[2, 3], []] = .ok [⟨[2, 3], [1, 2, 3, 4, 5, 6]⟩, ⟨[], [7]⟩] := rfl
example : ∀ a ∈ [(⟨[2, 3], [1, 2, 3, 4, 5, 6]⟩ : Arr Nat), ⟨[], [7]⟩], a.data.length = a.shape.prod := by decide
example : [1, 2, 3].length < ([[2, 3], []].map List.prod).sum := by decide

/-- C238: an update that is too long is not rejected. -/
theorem C238_long_refuted :
    ¬ ∀ (update : List Nat) (shapes : List (List Nat)), update.length ≠ (shapes.map List.prod).sum →
      ∃ e, shapeForUpdate update shapes = .error e := by
  intro h
  obtain ⟨e, he⟩ := h [1, 2, 3] [[2]] (by decide)
  have : shapeForUpdate [1, 2, 3] [[2]] = .ok [⟨[2], [1, 2]⟩] := rfl
  rw [this] at he
  cases he

/-- C238: what happens instead: the entries at the end are dropped. -/
theorem C238_long_partial {R : Type} (update rest : List R) (shapes : List (List Nat))
    (h : update.length = (shapes.map List.prod).sum) :
    ∃ l, shapeForUpdate (update ++ rest) shapes = .ok l ∧ l.map Arr.shape = shapes ∧ l.flatMap Arr.data = update := by
  obtain ⟨l, h1, h2, -, h4⟩ := reshapeLoop_ok (update ++ rest) shapes 0 (by rw [List.length_append]; omega)
  refine ⟨l, h1, h2, ?_⟩
  rw [h4, ← h, List.drop_zero, List.take_left]

example : ([1, 2] : List Nat).length = ([[2]].map List.prod).sum := by decide

end Verif.LegacyTree
