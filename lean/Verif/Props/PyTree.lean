import Verif.Model.PyTree

/-!
C66: flattening parameter trees is lossless.
-/

namespace Verif.PyTree

/-- an array whose entries are consistent with its dtype. -/
def Arr.WF (a : Arr) : Prop := a.cplx = false → ∀ z ∈ a.data, z.im = 0

/-- all leaves are consistent. -/
def Tree.WF (t : Tree) : Prop := ∀ a ∈ t.leaves, a.WF

/-- same shape, dtype and number of entries. -/
def Arr.Same (a b : Arr) : Prop := a.shape = b.shape ∧ a.cplx = b.cplx ∧ a.data.length = b.data.length

/-- specification: two trees have the same structure and leaves of the same shapes and dtypes. -/
inductive Same : Tree → Tree → Prop where
  /-- leaves -/
  | leaf {a b : Arr} (h : a.Same b) : Same (.leaf a) (.leaf b)
  /-- no children -/
  | nil : Same (.node []) (.node [])
  /-- first child and the rest -/
  | cons {c d : Tree} {cs ds : List Tree} (h : Same c d) (t : Same (.node cs) (.node ds)) :
      Same (.node (c :: cs)) (.node (d :: ds))

theorem Arr.Same.refl (a : Arr) : a.Same a := ⟨rfl, rfl, rfl⟩

mutual
/-- a tree has the structure of itself. -/
theorem Same.refl : ∀ t : Tree, Same t t
  | .leaf a => .leaf (Arr.Same.refl a)
  | .node cs => Same.reflList cs
/-- a node has the structure of itself. -/
theorem Same.reflList : ∀ cs : List Tree, Same (.node cs) (.node cs)
  | [] => .nil
  | t :: ts => .cons (Same.refl t) (Same.reflList ts)
end

/-- lists of leaves that match. -/
theorem same_leaves {t s : Tree} (h : Same t s) : List.Forall₂ Arr.Same t.leaves s.leaves := by
  induction h with
  | leaf h => simpa [Tree.leaves] using h
  | nil => simp [Tree.leaves, Tree.leaves.leavesList]
  | @cons c d cs ds _ _ ih1 ih2 =>
    simp only [Tree.leaves, Tree.leaves.leavesList] at ih2 ⊢
    exact List.rel_append ih1 ih2

theorem any_same {l m : List Arr} (h : List.Forall₂ Arr.Same l m) : l.any Arr.cplx = m.any Arr.cplx := by
  induction h with
  | nil => rfl
  | cons h _ ih => simp [List.any_cons, h.2.1, ih]

/-- filling the structure with leaves. -/
theorem unflatten_same {t s : Tree} (h : Same t s) (rest : List Arr) :
    unflatten t (s.leaves ++ rest) = (s, rest) := by
  induction h generalizing rest with
  | leaf h => simp [Tree.leaves, unflatten]
  | nil => simp [Tree.leaves, Tree.leaves.leavesList, unflatten, unflatten.go]
  | @cons c d cs ds _ _ ih1 ih2 =>
    have h2 := ih2 rest
    simp only [Tree.leaves, unflatten, Prod.mk.injEq, Tree.node.injEq] at h2
    simp only [Tree.leaves, Tree.leaves.leavesList, unflatten, unflatten.go, List.append_assoc, ih1, h2.1, h2.2]

theorem map_re_id (l : List ℂ) (h : ∀ z ∈ l, z.im = 0) : l.map (fun z => (z.re : ℂ)) = l := by
  induction l with
  | nil => rfl
  | cons z t ih =>
    rw [List.map_cons, ih fun w hw => h w (List.mem_cons_of_mem _ hw)]
    congr 1
    apply Complex.ext
    · simp
    · simp [h z List.mem_cons_self]

theorem unravel_aux (anyC : Bool) (sh : List Nat) (rest : List ℂ) {l m : List Arr}
    (h : List.Forall₂ Arr.Same l m) (hw : ∀ a ∈ m, a.WF) (hc : anyC = false → ∀ a ∈ m, a.cplx = false) :
    unravelList anyC l { shape := sh, cplx := anyC, data := m.flatMap Arr.data ++ rest } = m := by
  induction h with
  | nil => rfl
  | @cons a b l m h _ ih =>
    have ih' := ih (fun x hx => hw x (List.mem_cons_of_mem _ hx))
      (fun e x hx => hc e x (List.mem_cons_of_mem _ hx))
    obtain ⟨h1, h2, h3⟩ := h
    have ht : (((b :: m).flatMap Arr.data) ++ rest).take a.size = b.data := by
      rw [List.flatMap_cons, List.append_assoc, Arr.size, h3, List.take_left]
    have hd : (((b :: m).flatMap Arr.data) ++ rest).drop a.size = m.flatMap Arr.data ++ rest := by
      rw [List.flatMap_cons, List.append_assoc, Arr.size, h3, List.drop_left]
    simp only [unravelList, ht, hd, ih']
    congr 1
    obtain ⟨bs, bc, bd⟩ := b
    simp only at h1 h2 h3 ⊢
    have hb := hw ⟨bs, bc, bd⟩ List.mem_cons_self
    cases anyC with
    | false =>
      have := hc rfl _ List.mem_cons_self
      simp only at this
      simp [h1, this]
    | true =>
      cases bc with
      | true => simp [h1, h2]
      | false => simp [h1, h2, map_re_id bd (hb rfl)]

/-- **Round trip.** The unravel function of a tree `t` applied to the flattening of any tree `s` of the same
structure and dtypes (in particular of `t`) gives back `s`. -/
theorem C66_ravel_unravel (t s : Tree) (h : Same t s) (hw : s.WF) : treeUnravel t (treeRavel s) = s := by
  have hl := same_leaves h
  have h1 := unravel_aux (t.leaves.any Arr.cplx) [(s.leaves.map Arr.size).sum] [] hl hw (by
    intro e a ha
    rw [any_same hl] at e
    have := List.any_eq_false.mp e a ha
    simpa using this)
  rw [List.append_nil] at h1
  have h2 : treeRavel s = { shape := [(s.leaves.map Arr.size).sum], cplx := t.leaves.any Arr.cplx,
                            data := s.leaves.flatMap Arr.data } := by
    rw [any_same hl]; rfl
  rw [treeUnravel, h2, h1]
  have := unflatten_same h []
  rw [List.append_nil] at this
  rw [this]

/-- **Length.** The flattened vector has `tree_size` entries and is one-dimensional. -/
theorem C66_size (t : Tree) : (treeRavel t).data.length = treeSize t ∧ (treeRavel t).shape = [treeSize t] := by
  refine ⟨?_, rfl⟩
  simp only [treeRavel, ravelList, treeSize, List.length_flatMap]
  rfl

theorem unravel_leaves (anyC : Bool) (l : List Arr) (flat : Arr) :
    (unravelList anyC l flat).map Arr.shape = l.map Arr.shape := by
  induction l generalizing flat with
  | nil => rfl
  | cons a t ih => simp [unravelList, ih]

theorem unravel_data (anyC : Bool) (l : List Arr) (flat : Arr) (hl : flat.data.length = (l.map Arr.size).sum)
    (hh : anyC = true → ∀ a ∈ l, a.cplx = true) :
    (unravelList anyC l flat).flatMap Arr.data = flat.data ∧
      List.Forall₂ (fun a b => a.shape = b.shape ∧ a.data.length = b.data.length) l (unravelList anyC l flat) := by
  induction l generalizing flat with
  | nil =>
    simp only [List.map_nil, List.sum_nil, List.length_eq_zero_iff] at hl
    simp [unravelList, hl]
  | cons a t ih =>
    simp only [List.map_cons, List.sum_cons] at hl
    have hd : (flat.data.drop a.size).length = (t.map Arr.size).sum := by
      rw [List.length_drop]; omega
    have ih' := ih { flat with data := flat.data.drop a.size } hd
      (fun e x hx => hh e x (List.mem_cons_of_mem _ hx))
    have hp : (if (anyC && !a.cplx) = true then (flat.data.take a.size).map (fun z => (z.re : ℂ))
        else flat.data.take a.size) = flat.data.take a.size := by
      cases anyC with
      | false => simp
      | true => simp [hh rfl a List.mem_cons_self]
    simp only [unravelList, List.flatMap_cons, hp]
    refine ⟨?_, ?_⟩
    · rw [ih'.1, List.take_append_drop]
    · refine List.Forall₂.cons ⟨rfl, ?_⟩ ih'.2
      rw [List.length_take]
      simp only [Arr.size] at hl ⊢
      omega

mutual
/-- the leaves of a filled structure are the given leaves. -/
theorem leaves_unflatten : ∀ (t : Tree) (bs rest : List Arr), bs.length = t.leaves.length →
    (unflatten t (bs ++ rest)).1.leaves = bs ∧ (unflatten t (bs ++ rest)).2 = rest
  | .leaf a, [], _, h => by simp [Tree.leaves] at h
  | .leaf a, [b], rest, _ => by simp [unflatten, Tree.leaves]
  | .leaf a, b :: b' :: bs, _, h => by simp [Tree.leaves] at h
  | .node cs, bs, rest, h => by
    simp only [Tree.leaves] at h
    have := leaves_unflatten_go cs bs rest h
    simp only [unflatten, Tree.leaves]
    exact this
/-- the same for children. -/
theorem leaves_unflatten_go : ∀ (cs : List Tree) (bs rest : List Arr),
    bs.length = (Tree.leaves.leavesList cs).length →
    Tree.leaves.leavesList (unflatten.go cs (bs ++ rest)).1 = bs ∧ (unflatten.go cs (bs ++ rest)).2 = rest
  | [], bs, rest, h => by
    simp only [Tree.leaves.leavesList, List.length_nil, List.length_eq_zero_iff] at h
    subst h
    simp [unflatten.go, Tree.leaves.leavesList]
  | t :: ts, bs, rest, h => by
    simp only [Tree.leaves.leavesList, List.length_append] at h
    have hb : bs = bs.take t.leaves.length ++ bs.drop t.leaves.length := (List.take_append_drop _ _).symm
    have h1 := leaves_unflatten t (bs.take t.leaves.length) (bs.drop t.leaves.length ++ rest)
      (by rw [List.length_take]; omega)
    have h2 := leaves_unflatten_go ts (bs.drop t.leaves.length) rest (by rw [List.length_drop]; omega)
    rw [← List.append_assoc, ← hb] at h1
    simp only [unflatten.go, Tree.leaves.leavesList, h1.1, h1.2, h2.1, h2.2]
    exact ⟨hb.symm, trivial⟩
end

theorem unravelList_length (anyC : Bool) (l : List Arr) (flat : Arr) : (unravelList anyC l flat).length = l.length := by
  induction l generalizing flat with
  | nil => rfl
  | cons a t ih => simp [unravelList, ih]

/-- **The other direction**, for trees whose leaves are all real or all complex: every vector of length
`tree_size` is the flattening of the tree it is unraveled to. -/
theorem C66_unravel_ravel (t : Tree) (flat : Arr) (hl : flat.data.length = treeSize t)
    (hh : (∀ a ∈ t.leaves, a.cplx = true) ∨ (∀ a ∈ t.leaves, a.cplx = false)) :
    (treeRavel (treeUnravel t flat)).data = flat.data := by
  have h1 := unravel_data (t.leaves.any Arr.cplx) t.leaves flat hl (by
    intro e
    rcases hh with h | h
    · exact h
    · obtain ⟨a, ha, hc⟩ := List.any_eq_true.mp e
      rw [h a ha] at hc
      cases hc)
  have h2 := leaves_unflatten t (unravelList (t.leaves.any Arr.cplx) t.leaves flat) []
    (unravelList_length _ _ _)
  rw [List.append_nil] at h2
  simp only [treeRavel, treeUnravel, ravelList, h2.1, h1.1]

/-- **`tree_to_real` round trip.** The reassembling function of `t` applied to the real tree of any tree `s` of
the same structure and dtypes gives back `s`. -/
theorem C66_to_real (t s : Tree) (h : Same t s) : reassemble t (treeToReal s) = s := by
  induction h with
  | @leaf a b h =>
    obtain ⟨bs, bc, bd⟩ := b
    obtain ⟨h1, h2, h3⟩ := h
    simp only at h1 h2 h3
    cases bc with
    | false => simp [treeToReal, toRealLeaf, reassemble, reassembleLeaf, h2]
    | true =>
      simp only [treeToReal, toRealLeaf, reassemble, reassembleLeaf, h2, h1, if_true, Tree.leaf.injEq, Arr.mk.injEq,
        true_and]
      clear h3
      induction bd with
      | nil => rfl
      | cons z l ih =>
        simp only [List.map_cons, List.zipWith_cons_cons, ih]
        congr 1
        apply Complex.ext <;> simp
  | nil => simp [treeToReal, treeToReal.go, reassemble, reassemble.go]
  | @cons c d cs ds _ _ ih1 ih2 =>
    simp only [treeToReal, reassemble, Tree.node.injEq] at ih2
    simp only [treeToReal, treeToReal.go, reassemble, reassemble.go, ih1, ih2]

mutual
/-- the leaves of the real tree are real. -/
theorem real_leaves : ∀ (t : Tree), t.WF → ∀ a ∈ (treeToReal t).leaves, a.cplx = false ∧ ∀ z ∈ a.data, z.im = 0
  | .leaf b, hw, a, ha => by
    simp only [treeToReal, toRealLeaf] at ha
    cases hb : b.cplx with
    | true =>
      simp only [hb, if_true, Tree.leaves, Tree.leaves.leavesList, List.append_nil, List.cons_append, List.nil_append,
        List.mem_cons, List.not_mem_nil, or_false] at ha
      rcases ha with rfl | rfl
      · refine ⟨rfl, ?_⟩
        intro z hz
        obtain ⟨w, _, rfl⟩ := List.mem_map.mp hz
        simp
      · refine ⟨rfl, ?_⟩
        intro z hz
        obtain ⟨w, _, rfl⟩ := List.mem_map.mp hz
        simp
    | false =>
      simp only [hb, Bool.false_eq_true, if_false, Tree.leaves, List.mem_singleton] at ha
      subst ha
      exact ⟨hb, hw a (by simp [Tree.leaves]) hb⟩
  | .node cs, hw, a, ha => by
    simp only [treeToReal, Tree.leaves] at ha
    exact real_leavesList cs (by intro x hx; exact hw x (by simpa [Tree.leaves] using hx)) a ha
/-- the same for children. -/
theorem real_leavesList : ∀ (cs : List Tree), (∀ a ∈ Tree.leaves.leavesList cs, a.WF) →
    ∀ a ∈ Tree.leaves.leavesList (treeToReal.go cs), a.cplx = false ∧ ∀ z ∈ a.data, z.im = 0
  | [], _, a, ha => by simp [treeToReal.go, Tree.leaves.leavesList] at ha
  | t :: ts, hw, a, ha => by
    simp only [Tree.leaves.leavesList, List.mem_append] at hw
    simp only [treeToReal.go, Tree.leaves.leavesList, List.mem_append] at ha
    rcases ha with h | h
    · exact real_leaves t (fun x hx => hw x (Or.inl hx)) a h
    · exact real_leavesList ts (fun x hx => hw x (Or.inr hx)) a h
end

/-- **`tree_to_real` returns real leaves only.** -/
theorem C66_to_real_leaves (t : Tree) (hw : t.WF) (a : Arr) (ha : a ∈ (treeToReal t).leaves) :
    a.cplx = false ∧ ∀ z ∈ a.data, z.im = 0 := real_leaves t hw a ha

/-- a tree with one real and one complex leaf -/
def exTree : Tree := .node [.leaf ⟨[2], false, [1, 2]⟩, .node [.leaf ⟨[1], true, [⟨3, 4⟩]⟩]]

example : exTree.WF ∧ treeUnravel exTree (treeRavel exTree) = exTree ∧ treeSize exTree = 3 ∧
    reassemble exTree (treeToReal exTree) = exTree := by
  have hw : exTree.WF := by
    intro a ha
    simp only [exTree, Tree.leaves, Tree.leaves.leavesList, List.append_nil, List.cons_append, List.nil_append,
      List.mem_cons, List.not_mem_nil, or_false] at ha
    rcases ha with rfl | rfl
    · intro _ z hz
      simp at hz
      rcases hz with rfl | rfl <;> simp
    · intro h; cases h
  exact ⟨hw, C66_ravel_unravel _ _ (Same.refl _) hw, by rfl, C66_to_real _ _ (Same.refl _)⟩

example : (∀ a ∈ (Tree.leaf ⟨[2], true, [1, 2]⟩).leaves, a.cplx = true) := by simp [Tree.leaves]

end Verif.PyTree
