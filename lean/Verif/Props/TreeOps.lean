import Verif.Spec.TreeOps
import Mathlib.Tactic.NormNum
import Mathlib.Tactic.Ring
import Mathlib.Algebra.BigOperators.Group.List.Basic
import Mathlib.Algebra.BigOperators.Ring.List

/-!
C171, C172: arithmetic on trees, dtypes, composition and keys across processes.
-/

namespace Verif.TreeOps

open Verif.Hilbert (Err)
open Verif.Keys (Key)

/-- a weaker relation of the leaves. -/
theorem SameDef.mono {α β : Type} {R S : α → β → Prop} {a : Tree α} {b : Tree β} (h : SameDef R a b)
    (hRS : ∀ x y, R x y → S x y) : SameDef S a b := by
  induction h with
  | leaf a b h => exact .leaf _ _ (hRS _ _ h)
  | nil => exact .nil
  | cons c d cs ds _ _ ih ihs => exact .cons _ _ _ _ ih ihs

/-- leaves of a container. -/
theorem leaves_cons {α : Type} (c : Tree α) (cs : List (Tree α)) :
    leaves (.node (c :: cs)) = leaves c ++ leaves (.node cs) := by
  simp [leaves, leaves.go]

/-- leaves of a mapped tree. -/
theorem leaves_treeMap {α β : Type} (f : α → β) (t : Tree α) :
    leaves (treeMap f t) = (leaves t).map f := by
  refine Tree.rec (motive_1 := fun t => leaves (treeMap f t) = (leaves t).map f)
    (motive_2 := fun l => leaves.go (treeMap.go f l) = (leaves.go l).map f) ?_ ?_ ?_ ?_ t
  · intro a; simp [leaves, treeMap]
  · intro cs h; simpa [leaves, treeMap] using h
  · simp [leaves.go, treeMap.go]
  · intro c cs h hs; simp [leaves.go, treeMap.go, h, hs]

/-- two trees of the same structure are mapped leaf by leaf. -/
theorem treeMap2_ok {α β γ : Type} {R : α → β → Prop} (f : α → β → γ) {a : Tree α} {b : Tree β}
    (h : SameDef R a b) : ∃ c, treeMap2 f a b = .ok c ∧ leaves c = List.zipWith f (leaves a) (leaves b) ∧
      List.Forall₂ R (leaves a) (leaves b) ∧ SameDef (fun x z => ∃ y, R x y ∧ z = f x y) a c ∧
      (∀ p x y, leafAt a p = some x → leafAt b p = some y → leafAt c p = some (f x y)) := by
  induction h with
  | leaf a b h =>
    refine ⟨.leaf (f a b), rfl, ?_, ?_, .leaf _ _ ⟨b, h, rfl⟩, ?_⟩
    · simp [leaves]
    · simpa [leaves] using h
    · intro p x y hx hy
      cases p with
      | nil => simp [leafAt] at hx hy ⊢; rw [hx, hy]
      | cons => simp [leafAt] at hx
  | nil =>
    refine ⟨.node [], rfl, ?_, ?_, .nil, ?_⟩
    · simp [leaves, leaves.go]
    · simp [leaves, leaves.go]
    · intro p x y hx hy
      cases p <;> simp [leafAt] at hx
  | cons c d cs ds h hs ih ihs =>
    obtain ⟨e, he, hl, hf, hd, hp⟩ := ih
    obtain ⟨es, hes, hls, hfs, hds, hps⟩ := ihs
    have hgo : ∃ es', treeMap2.go f cs ds = .ok es' ∧ es = .node es' := by
      rw [treeMap2] at hes
      cases hq : treeMap2.go f cs ds with
      | error x => rw [hq] at hes; simp [Except.map] at hes
      | ok es' => rw [hq] at hes; simp [Except.map] at hes; exact ⟨es', rfl, hes.symm⟩
    obtain ⟨es', hgo, rfl⟩ := hgo
    refine ⟨.node (e :: es'), ?_, ?_, ?_, .cons _ _ _ _ hd hds, ?_⟩
    · rw [treeMap2, treeMap2.go, he, hgo]; rfl
    · rw [leaves_cons, leaves_cons, leaves_cons, hl, hls, List.zipWith_append hf.length_eq]
    · rw [leaves_cons, leaves_cons]
      exact List.rel_append hf hfs
    · intro p x y hx hy
      cases p with
      | nil => simp [leafAt] at hx
      | cons i p =>
        cases i with
        | zero => simp [leafAt] at hx hy ⊢; exact hp p x y hx hy
        | succ i =>
          have := hps (i :: p) x y (by simpa [leafAt] using hx) (by simpa [leafAt] using hy)
          simpa [leafAt] using this

/-- a left fold of additions is a sum. -/
theorem foldl_add (l : List ℂ) (x : ℂ) : l.foldl (· + ·) x = x + l.sum := by
  induction l generalizing x with
  | nil => simp
  | cons a l ih => rw [List.foldl_cons, ih, List.sum_cons]; ring

/-- products of the entries of all leaves, in one list. -/
theorem sum_products {l m : List Arr} (h : List.Forall₂ SameSize l m) :
    ((List.zipWith mulLeaf l m).map List.sum).sum =
      (List.zipWith (· * ·) (l.flatMap Arr.data) (m.flatMap Arr.data)).sum := by
  induction h with
  | nil => simp
  | cons h _ ih =>
    simp only [List.zipWith_cons_cons, List.map_cons, List.sum_cons, List.flatMap_cons]
    rw [List.zipWith_append h.2, List.sum_append, ih]; rfl

/-- `axpy` on all leaves, in one list. -/
theorem flat_axpy (dt : DType → DType → DType) (a : ℂ) {l m : List Arr} (h : List.Forall₂ SameSize l m) :
    (List.zipWith (axpyLeaf dt a) l m).flatMap Arr.data =
      List.zipWith (fun u v => a * u + v) (l.flatMap Arr.data) (m.flatMap Arr.data) := by
  induction h with
  | nil => simp
  | cons h _ ih =>
    simp only [List.zipWith_cons_cons, List.flatMap_cons]
    rw [List.zipWith_append h.2, ih]; rfl

/-- **C171**, dot product: for trees of one structure with at least one leaf `tree_dot(a, b)` is the dot product of
the flattened arrays, whatever the nesting. -/
theorem C171_dot (a b : Tree Arr) (h : SameDef SameSize a b) (hne : leaves a ≠ []) :
    treeDot a b = .ok (List.zipWith (· * ·) (ravel a) (ravel b)).sum := by
  obtain ⟨c, hc, hl, hf, -, -⟩ := treeMap2_ok mulLeaf h
  have hs := sum_products hf
  rw [← hl, ← leaves_treeMap] at hs
  rw [treeDot, hc]
  show reduceAdd (leaves (treeMap List.sum c)) = _
  have hne' : leaves (treeMap List.sum c) ≠ [] := by
    rw [leaves_treeMap, hl]
    intro h0
    have := hf.length_eq
    have hz := congrArg List.length h0
    simp at hz
    rcases hz with hz | hz
    · exact hne hz
    · rw [hz] at this; simp at this; exact hne this
  cases hL : leaves (treeMap List.sum c) with
  | nil => exact absurd hL hne'
  | cons x xs =>
    rw [hL] at hs
    show Except.ok (xs.foldl (· + ·) x) = _
    rw [foldl_add, ← List.sum_cons, hs]; rfl

/-- entries of a conjugated tree. -/
theorem ravel_conj (t : Tree Arr) (hf : ∀ x ∈ leaves t, ∀ z ∈ x.data, Fits x.dtype z) :
    ravel (treeConj t) = (ravel t).map (starRingEnd ℂ) := by
  rw [ravel, ravel, treeConj, leaves_treeMap]
  generalize leaves t = L at hf
  induction L with
  | nil => simp
  | cons x xs ih =>
    rw [List.map_cons, List.flatMap_cons, List.flatMap_cons, List.map_append,
      ih (fun y hy => hf y (List.mem_cons_of_mem _ hy))]
    congr 1
    have hx := hf x List.mem_cons_self
    rw [conjLeaf]
    by_cases hc : isComplexDtype x.dtype = true
    · rw [if_pos hc]
    · rw [if_neg hc]
      symm
      conv_rhs => rw [← List.map_id x.data]
      apply List.map_congr_left
      intro z hz
      have := hx z hz
      revert this hc
      cases x.dtype <;> simp [isComplexDtype, Fits] <;>
        first
        | (rintro (rfl | rfl) <;> simp)
        | (rintro n rfl; simp)

/-- **C171**, inner product: `tree_dot(tree_conj(a), a)` is the sum of the squared moduli of all entries: a
nonnegative real number, and zero only if all entries are zero. -/
theorem C171_norm (a : Tree Arr) (h : SameDef SameSize (treeConj a) a) (hne : leaves a ≠ [])
    (hf : ∀ x ∈ leaves a, ∀ z ∈ x.data, Fits x.dtype z) :
    treeDot (treeConj a) a = .ok (((ravel a).map fun z => Complex.normSq z).sum : ℝ) ∧
      (treeDot (treeConj a) a = .ok 0 ↔ ∀ z ∈ ravel a, z = 0) := by
  have h1 : treeDot (treeConj a) a = .ok (((ravel a).map fun z => Complex.normSq z).sum : ℝ) := by
    rw [C171_dot _ _ h (by rw [treeConj, leaves_treeMap]; simpa using hne), ravel_conj a hf]
    congr 1
    induction ravel a with
    | nil => simp
    | cons z l ih =>
      simp only [List.map_cons, List.zipWith_cons_cons, List.sum_cons, ih]
      push_cast
      rw [Complex.normSq_eq_conj_mul_self]
  refine ⟨h1, ?_⟩
  rw [h1]
  simp only [Except.ok.injEq, Complex.ofReal_eq_zero]
  induction ravel a with
  | nil => simp
  | cons z l ih =>
    have hnn : 0 ≤ (l.map fun z => Complex.normSq z).sum :=
      List.sum_nonneg (by intro x hx; obtain ⟨w, -, rfl⟩ := List.mem_map.1 hx; exact Complex.normSq_nonneg w)
    simp only [List.map_cons, List.sum_cons, List.forall_mem_cons]
    rw [add_eq_zero_iff_of_nonneg (Complex.normSq_nonneg z) hnn, Complex.normSq_eq_zero, ih]

/-- **C171**, `tree_axpy`: the result has the structure of the arguments and its flattened array is
`a * ravel(x) + ravel(y)`. -/
theorem C171_axpy (dt : DType → DType → DType) (a : ℂ) (x y : Tree Arr) (h : SameDef SameSize x y) :
    ∃ r, treeAxpy dt a x y = .ok r ∧ SameDef (fun u v => u.shape = v.shape) x r ∧
      ravel r = List.zipWith (fun u v => a * u + v) (ravel x) (ravel y) := by
  obtain ⟨c, hc, hl, hf, hd, -⟩ := treeMap2_ok (axpyLeaf dt a) h
  refine ⟨c, hc, ?_, ?_⟩
  · refine hd.mono ?_
    rintro u v ⟨w, -, rfl⟩
    rfl
  · rw [ravel, hl, flat_axpy dt a hf]; rfl

/-- a map of two trees succeeds only for trees of one structure. -/
theorem treeMap2_sameDef {α β γ : Type} (f : α → β → γ) (a : Tree α) :
    ∀ (b : Tree β) (c : Tree γ), treeMap2 f a b = .ok c → SameDef (fun _ _ => True) a b := by
  refine Tree.rec
    (motive_1 := fun a => ∀ (b : Tree β) (c : Tree γ), treeMap2 f a b = .ok c → SameDef (fun _ _ => True) a b)
    (motive_2 := fun l => ∀ (m : List (Tree β)) (r : List (Tree γ)), treeMap2.go f l m = .ok r →
      SameDef (fun _ _ => True) (.node l) (.node m)) ?_ ?_ ?_ ?_ a
  · intro a b c h
    cases b with
    | leaf b => exact .leaf _ _ trivial
    | node => simp [treeMap2] at h
  · intro cs ih b c h
    cases b with
    | leaf b => simp [treeMap2] at h
    | node ds =>
      rw [treeMap2] at h
      cases hq : treeMap2.go f cs ds with
      | error x => rw [hq] at h; simp [Except.map] at h
      | ok es => exact ih ds es hq
  · intro m r h
    cases m with
    | nil => exact .nil
    | cons => simp [treeMap2.go] at h
  · intro c cs ihc ihcs m r h
    cases m with
    | nil => simp [treeMap2.go] at h
    | cons d ds =>
      rw [treeMap2.go] at h
      cases hq : treeMap2 f c d with
      | error x => rw [hq] at h; simp [bind, Except.bind] at h
      | ok e =>
        cases hqs : treeMap2.go f cs ds with
        | error x => rw [hq, hqs] at h; simp [bind, Except.bind] at h
        | ok es => exact .cons _ _ _ _ (ihc _ _ hq) (ihcs _ _ hqs)

/-- entries that fit a dtype are unchanged by `astype`. -/
theorem astype_fits (dt : DType) (z : ℂ) (h : Fits dt z) :
    astype dt (if isComplexDtype dt then z else (z.re : ℂ)) = z := by
  revert h
  cases dt <;> simp [isComplexDtype, Fits, astype, truncRe] <;>
    first
    | (rintro (rfl | rfl) <;> simp)
    | (rintro n rfl; simp)

/-- the result of `astype` fits the dtype. -/
theorem fits_astype (dt : DType) (z : ℂ) :
    Fits dt (astype dt (if isComplexDtype dt then z else (z.re : ℂ))) := by
  cases dt <;> simp [isComplexDtype, Fits, astype, truncRe] <;>
    first
    | exact em _
    | (split
       · exact ⟨⌊z.re⌋, rfl⟩
       · exact ⟨⌈z.re⌉, rfl⟩)

/-- one leaf of `tree_cast`. -/
theorem castLeaf_data (x t : Arr) : (castLeaf x t).data =
    x.data.map fun z => astype t.dtype (if isComplexDtype t.dtype then z else (z.re : ℂ)) := by
  rw [castLeaf]
  cases isComplexDtype t.dtype <;> simp

/-- **C171**, `tree_cast`: it succeeds exactly for trees of one structure. Each leaf then has the shape of the leaf of
`x` and the dtype of the leaf of `target` at the same place, and entries which fit this dtype: for a complex dtype
those of `x`, for a real floating dtype their real parts, for an integer dtype the real parts rounded towards zero. -/
theorem C171_cast (x target : Tree Arr) :
    ((∃ r, treeCast x target = .ok r) ↔ SameDef (fun _ _ => True) x target) ∧
      ∀ r, treeCast x target = .ok r → ∀ p a t, leafAt x p = some a → leafAt target p = some t →
        ∃ c, leafAt r p = some c ∧ c.dtype = t.dtype ∧ c.shape = a.shape ∧ (∀ z ∈ c.data, Fits t.dtype z) ∧
          (isComplexDtype t.dtype = true → c.data = a.data) ∧
          (isRealDtype t.dtype = true → c.data = a.data.map fun z => (z.re : ℂ)) ∧
          ((t.dtype = .int8 ∨ t.dtype = .int16 ∨ t.dtype = .int32 ∨ t.dtype = .int64) →
            List.Forall₂ (fun (z w : ℂ) => ∃ n : ℤ, w = n ∧ |(n : ℝ)| ≤ |z.re| ∧ |z.re - n| < 1) a.data c.data) := by
  refine ⟨⟨fun ⟨r, hr⟩ => treeMap2_sameDef _ _ _ _ hr, fun h => ?_⟩, ?_⟩
  · obtain ⟨c, hc, -⟩ := treeMap2_ok castLeaf h
    exact ⟨c, hc⟩
  · intro r hr p a t ha ht
    obtain ⟨c, hc, -, -, -, hp⟩ := treeMap2_ok castLeaf (treeMap2_sameDef _ _ _ _ hr)
    have : c = r := by rw [treeCast, hc] at hr; exact Except.ok.inj hr
    subst this
    refine ⟨castLeaf a t, hp p a t ha ht, rfl, rfl, ?_, ?_, ?_, ?_⟩
    · intro z hz
      rw [castLeaf_data] at hz
      obtain ⟨w, -, rfl⟩ := List.mem_map.1 hz
      exact fits_astype _ _
    · intro h
      rw [castLeaf_data]
      revert h
      cases t.dtype <;> simp [isComplexDtype, astype]
    · intro h
      rw [castLeaf_data]
      revert h
      cases t.dtype <;> simp [isRealDtype, isComplexDtype, astype]
    · intro h
      rw [castLeaf_data, List.forall₂_map_right_iff]
      apply List.forall₂_same.2
      intro z _
      have h2 : astype t.dtype (if isComplexDtype t.dtype then z else (z.re : ℂ)) = truncRe (z.re : ℂ) := by
        rcases h with h | h | h | h <;> rw [h] <;> simp [isComplexDtype, astype]
      rw [h2, truncRe]
      simp only [Complex.ofReal_re]
      by_cases h0 : 0 ≤ z.re
      · rw [if_pos h0]
        refine ⟨⌊z.re⌋, rfl, ?_, ?_⟩
        · rw [abs_of_nonneg h0, abs_of_nonneg (by exact_mod_cast Int.floor_nonneg.2 h0)]
          exact Int.floor_le _
        · rw [abs_of_nonneg (sub_nonneg.2 (Int.floor_le _))]
          linarith [Int.lt_floor_add_one z.re]
      · rw [if_neg h0]
        have h1 : z.re ≤ 0 := (not_le.1 h0).le
        refine ⟨⌈z.re⌉, rfl, ?_, ?_⟩
        · rw [abs_of_nonpos h1, abs_of_nonpos (by exact_mod_cast Int.ceil_le.2 (by simpa using h1))]
          linarith [Int.le_ceil z.re]
        · rw [abs_of_nonpos (sub_nonpos.2 (Int.le_ceil _))]
          linarith [Int.ceil_lt_add_one z.re]

/-- **C171**, dtypes: `dtype_real` and `dtype_complex` are inverse to each other between the floating dtypes of single
and double precision and the complex dtypes made of two of them; `dtype_real` leaves every dtype that is not complex,
`dtype_complex` every complex dtype; every other dtype raises TypeError. -/
theorem C171_dtypes (t : DType) :
    (∀ r, Pair r t → dtypeReal t = .ok r) ∧ (∀ c, Pair t c → dtypeComplex t = .ok c) ∧
      (isComplexDtype t = false → dtypeReal t = .ok t) ∧ (isComplexDtype t = true → dtypeComplex t = .ok t) ∧
      (isComplexDtype t = true → (∀ r, ¬ Pair r t) → dtypeReal t = .error .typeError) ∧
      (isComplexDtype t = false → (∀ c, ¬ Pair t c) → dtypeComplex t = .error .typeError) := by
  refine ⟨?_, ?_, ?_, ?_, ?_, ?_⟩
  · rintro r (_ | _) <;> decide
  · rintro r (_ | _) <;> decide
  · cases t <;> decide
  · cases t <;> decide
  · intro h hn
    cases t <;> first | exact absurd h (by decide) | exact absurd .single (hn _) | exact absurd .double (hn _) | rfl
  · intro h hn
    cases t <;> first | exact absurd h (by decide) | exact absurd .single (hn _) | exact absurd .double (hn _) | rfl

/-- the loop over the types. -/
theorem promoteLoop_eq (main : DType) (l : List DType) :
    promoteLoop main l = if l.any isComplexDtype then dtypeComplex main else .ok main := by
  induction l with
  | nil => rfl
  | cons t l ih =>
    rw [promoteLoop, ih]
    cases h : isComplexDtype t <;> simp [h]

/-- **C171**, `maybe_promote_to_complex`: the first dtype if none is complex; otherwise its complex counterpart,
wherever the complex dtype stands. -/
theorem C171_promote (main : DType) (ts : List DType) :
    ((∀ t ∈ main :: ts, isComplexDtype t = false) → maybePromoteToComplex (main :: ts) = .ok main) ∧
      ((∃ t ∈ main :: ts, isComplexDtype t = true) →
        maybePromoteToComplex (main :: ts) = dtypeComplex main) := by
  rw [maybePromoteToComplex, promoteLoop_eq]
  constructor
  · intro h
    rw [if_neg]
    simp only [List.any_eq_true, not_exists, not_and]
    intro t ht
    rw [h t ht]; decide
  · intro h
    rw [if_pos (List.any_eq_true.2 h)]

/-- **C171**, composition: `compose(f₁, …, fₙ)(x)` is `f₁(…(fₙ(x)))`. -/
theorem C171_compose {α : Type} (f : α → α) (fs : List (α → α)) :
    ∃ g, compose (f :: fs) = .ok g ∧ ∀ x, g x = (f :: fs).foldr (fun h y => h y) x := by
  refine ⟨_, rfl, ?_⟩
  intro x
  induction fs generalizing f with
  | nil => rfl
  | cons g fs ih => rw [List.foldl_cons, ih]; rfl

/-- **C171**, `PRNGKey`: all processes of the communicator hold the key of its root, made from the seed of the root
alone (from the number drawn by the root if there is no seed). -/
theorem C171_key {κ : Type} (mk : Int → κ) (drawn : Nat → Int) (seed : Nat → Seed κ) (root : Nat)
    (comm : List Nat) (hr : root < comm.length) (p : Nat) (hp : p ∈ comm) :
    prngKey mk drawn seed root comm p =
      match seed comm[root] with
      | .none => mk (drawn comm[root])
      | .int n => mk n
      | .key k => k := by
  rw [prngKey, bcast, if_pos hp, List.getElem?_eq_getElem hr]
  show localKey mk (drawn comm[root]) (seed comm[root]) = _
  cases seed comm[root] <;> rfl

/-- **C171**, `mpi_split`: on all processes the result comes from the key of the root, and two processes hold
different keys. -/
theorem C171_split (n root : Nat) (hr : root < n) (key key' : Nat → Key) (comm : List Nat) :
    (key root = key' root → ∀ p < n, mpiSplit n key root comm p = mpiSplit n key' root comm p) ∧
      ∀ p < n, ∀ q < n, mpiSplit n key root comm p = mpiSplit n key root comm q → p = q := by
  have h : ∀ (k : Nat → Key), ∀ p < n, mpiSplit n k root comm p = .split (k root) n p := by
    intro k p hp
    rw [mpiSplit, bcast, if_pos (List.mem_range.2 hp),
      List.getElem?_eq_getElem (by simpa using hr)]
    simp
  constructor
  · intro hk p hp
    rw [h _ p hp, h _ p hp, hk]
  · intro p hp q hq he
    rw [h _ p hp, h _ q hq] at he
    exact (Key.split.injEq .. ▸ he).2.2

/-- a tree of two arrays in nested containers. -/
noncomputable def exTree (u v w : ℂ) : Tree Arr :=
  .node [.leaf ⟨[2], .complex64, [u, v]⟩, .node [.leaf ⟨[], .complex128, [w]⟩]]

/-- the hypotheses of C171_dot, C171_axpy and C171_norm hold for nested trees. -/
example : SameDef SameSize (exTree 1 2 3) (exTree Complex.I 5 6) ∧ leaves (exTree 1 2 3) ≠ [] ∧
    SameDef SameSize (treeConj (exTree 1 2 3)) (exTree 1 2 3) ∧
    (∀ x ∈ leaves (exTree 1 2 3), ∀ z ∈ x.data, Fits x.dtype z) := by
  refine ⟨.cons _ _ _ _ (.leaf _ _ ⟨rfl, rfl⟩) (.cons _ _ _ _ (.cons _ _ _ _ (.leaf _ _ ⟨rfl, rfl⟩) .nil) .nil),
    by simp [exTree, leaves, leaves.go],
    .cons _ _ _ _ (.leaf _ _ ⟨rfl, ?_⟩) (.cons _ _ _ _ (.cons _ _ _ _ (.leaf _ _ ⟨rfl, ?_⟩) .nil) .nil), ?_⟩
  · simp [conjLeaf, isComplexDtype]
  · simp [conjLeaf, isComplexDtype]
  · simp [exTree, leaves, leaves.go, Fits]

/-- a root of a communicator of processes 3 and 5. -/
example : (1 < [3, 5].length) ∧ 3 ∈ [3, 5] ∧
    prngKey (κ := Int) id (fun q => q) (fun q => if q = 5 then .int 7 else .none) 1 [3, 5] 3 = 7 := by decide

/-- **C172**, refuted: the docstring of `tree_ishomogeneous` claims that True means that all leaves are real or all are
complex. Leaves of integers or booleans are neither: for every tree with a complex leaf and no real floating leaf the
answer is True, although a leaf of integers may be there. -/
theorem C172_homogeneous_refuted :
    ¬ ∀ t : Tree Arr, treeIsHomogeneous t = true ↔
      (∀ x ∈ leaves t, isComplexDtype x.dtype = false) ∨ (∀ x ∈ leaves t, isComplexDtype x.dtype = true) := by
  intro h
  have := (h (.node [.leaf ⟨[1], .int32, [1]⟩, .leaf ⟨[1], .complex64, [1]⟩])).1
    (by simp [treeIsHomogeneous, treeLeafIsReal, treeLeafIsComplex, treeMap, treeMap.go, leaves, leaves.go,
      isRealDtype, isComplexDtype])
  rcases this with h | h
  · have := h ⟨[1], .complex64, [1]⟩ (by simp [leaves, leaves.go])
    simp [isComplexDtype] at this
  · have := h ⟨[1], .int32, [1]⟩ (by simp [leaves, leaves.go])
    simp [isComplexDtype] at this

/-- **C172**, what holds: for trees whose leaves are real floating or complex the answer is right. -/
theorem C172_homogeneous_partial (t : Tree Arr)
    (hf : ∀ x ∈ leaves t, isRealDtype x.dtype = true ∨ isComplexDtype x.dtype = true) :
    treeIsHomogeneous t = true ↔
      (∀ x ∈ leaves t, isRealDtype x.dtype = true) ∨ (∀ x ∈ leaves t, isComplexDtype x.dtype = true) := by
  have hx : ∀ d, isRealDtype d = true → isComplexDtype d = true → False := by intro d; cases d <;> decide
  simp only [treeIsHomogeneous, treeLeafIsReal, treeLeafIsComplex, leaves_treeMap]
  constructor
  · intro h
    by_cases hr : ∃ x ∈ leaves t, isRealDtype x.dtype = true
    · left
      intro x hxm
      rcases hf x hxm with h1 | h1
      · exact h1
      · exfalso
        obtain ⟨y, hy, hyr⟩ := hr
        have a1 : ((leaves t).map fun x => isRealDtype x.dtype).any id = true :=
          List.any_eq_true.2 ⟨true, List.mem_map.2 ⟨y, hy, hyr⟩, rfl⟩
        have a2 : ((leaves t).map fun x => isComplexDtype x.dtype).any id = true :=
          List.any_eq_true.2 ⟨true, List.mem_map.2 ⟨x, hxm, h1⟩, rfl⟩
        rw [a1, a2] at h
        simp at h
    · right
      intro x hxm
      rcases hf x hxm with h1 | h1
      · exact absurd ⟨x, hxm, h1⟩ hr
      · exact h1
  · intro h
    rw [Bool.not_eq_true', Bool.and_eq_false_iff]
    rcases h with h | h
    · right
      rw [List.any_eq_false]
      intro b hb
      obtain ⟨x, hxm, rfl⟩ := List.mem_map.1 hb
      intro hc
      exact hx _ (h x hxm) hc
    · left
      rw [List.any_eq_false]
      intro b hb
      obtain ⟨x, hxm, rfl⟩ := List.mem_map.1 hb
      intro hc
      exact hx _ hc (h x hxm)

/-- the hypothesis of C172_homogeneous_partial holds for a mixed tree, where the answer is False. -/
example : (∀ x ∈ leaves (.node [.leaf ⟨[1], .float32, [1]⟩, .leaf ⟨[1], .complex64, [1]⟩] : Tree Arr),
      isRealDtype x.dtype = true ∨ isComplexDtype x.dtype = true) ∧
    treeIsHomogeneous (.node [.leaf ⟨[1], .float32, [1]⟩, .leaf ⟨[1], .complex64, [1]⟩]) = false := by
  constructor <;>
  simp [treeIsHomogeneous, treeLeafIsReal, treeLeafIsComplex, treeMap, treeMap.go, leaves, leaves.go,
      isRealDtype, isComplexDtype]

/-- **C172**, refuted: `tree_dot` of trees without leaves is not the dot product of their flattened arrays (zero):
for all of them TypeError is raised. -/
theorem C172_empty_refuted (a b : Tree Arr) (h : SameDef SameSize a b) (he : leaves a = []) :
    (List.zipWith (· * ·) (ravel a) (ravel b)).sum = 0 ∧ treeDot a b = .error .typeError := by
  obtain ⟨c, hc, hl, hf, -, -⟩ := treeMap2_ok mulLeaf h
  constructor
  · simp [ravel, he]
  · rw [treeDot, hc]
    show reduceAdd (leaves (treeMap List.sum c)) = _
    rw [leaves_treeMap, hl, he]; rfl

/-- there are trees without leaves. -/
example : SameDef SameSize (.node [.node [], .node []]) (.node [.node [], .node []]) ∧
    leaves (.node [.node [], .node []] : Tree Arr) = [] :=
  ⟨.cons _ _ _ _ .nil (.cons _ _ _ _ .nil .nil), by simp [leaves, leaves.go]⟩

/-- **C172**, refuted: `mpi_split(key, root, comm)` does not split the key of the root of `comm`. Whatever `comm` is, the
key comes from process `root` of all processes, and its place in the split is the rank among all processes. -/
theorem C172_comm_refuted (n root : Nat) (hr : root < n) (key : Nat → Key) (comm : List Nat) (p : Nat) (hp : p < n) :
    mpiSplit n key root comm p = .split (key root) n p ∧
      (∀ s, comm[root]? = some s → key s ≠ key root →
        ∀ m i, mpiSplit n key root comm p ≠ .split (key s) m i) := by
  have h : mpiSplit n key root comm p = .split (key root) n p := by
    rw [mpiSplit, bcast, if_pos (List.mem_range.2 hp), List.getElem?_eq_getElem (by simpa using hr)]
    simp
  refine ⟨h, ?_⟩
  intro s _ hk m i he
  rw [h] at he
  exact hk (Key.split.injEq .. ▸ he).1.symm

/-- a communicator whose root is not the root of all processes. -/
example : (0 < 4) ∧ [2, 3][0]? = some 2 ∧
    (fun q => if q = 2 then Key.split .base 1 0 else Key.base) 2 ≠
      (fun q => if q = 2 then Key.split .base 1 0 else Key.base) 0 := by decide

end Verif.TreeOps
