import Verif.Model.Numba4jax
import Mathlib.Data.List.Basic
import Mathlib.Tactic.NormNum

/-! C212, C213: numba functions called from jax. -/

namespace Verif.Numba4jax
open Verif.Hilbert (Err)

variable {K : Type}

/-- Specification, the documented contract of a numba function with `k` inputs (numba4jax.py:14-30): whatever the output arrays contain, it leaves the results `F` of the inputs in
    them and does not change the inputs; the results have the declared shapes. -/
structure Implements (f : Fn K) (F : List (Arr K) → List (Arr K)) (k : Nat) : Prop where
  result : ∀ outs args, args.length = k → outs.map Arr.shape = (f.shapes (args.map Arr.shape)).always → f.call (outs ++ args) = F args ++ args
  shape : ∀ args, args.length = k → (F args).map Arr.shape = (f.shapes (args.map Arr.shape)).always

/-- Specification: the results are one array exactly if one shape is declared, otherwise a collection. -/
def Returns (s : Shapes) (l : List (Arr K)) (o : Out K) : Prop :=
  match s with
  | .one _ => ∃ a, l = [a] ∧ o = .one a
  | .many _ => o = .many l

theorem buffers_shape (g : Nat → List Nat → K) (l : List (List Nat)) : (buffers g l).map Arr.shape = l := by
  refine List.ext_getElem (by simp [buffers]) fun i h1 h2 => ?_
  simp [buffers]

theorem Implements.take {f : Fn K} {F : List (Arr K) → List (Arr K)} (g : Nat → List Nat → K) (args : List (Arr K)) (h : Implements f F args.length) :
    (f.call (buffers g (f.shapes (args.map Arr.shape)).always ++ args)).take (f.shapes (args.map Arr.shape)).always.length = F args := by
  rw [h.result _ _ rfl (buffers_shape _ _), ← h.shape args rfl, List.length_map, List.take_left]

theorem Implements.unpack {f : Fn K} {F : List (Arr K) → List (Arr K)} {args : List (Arr K)} (h : Implements f F args.length) :
    ∃ o, unpack (f.shapes (args.map Arr.shape)) (F args) = .ok o ∧ Returns (f.shapes (args.map Arr.shape)) (F args) o := by
  have := h.shape args rfl
  rcases hs : f.shapes (args.map Arr.shape) with s | l
  · rw [hs] at this
    rcases hF : F args with _ | ⟨a, _ | ⟨b, r⟩⟩
    · rw [hF] at this; simp [Shapes.always] at this
    · exact ⟨.one a, rfl, a, rfl, rfl⟩
    · rw [hF] at this; simp [Shapes.always] at this
  · exact ⟨_, rfl, rfl⟩

/-- C212: outside of jit the function returns the results of the numba function, whatever `np.empty` returned. -/
theorem C212_eager {f : Fn K} {F : List (Arr K) → List (Arr K)} (g : Nat → List Nat → K) (args : List (Arr K)) (h : Implements f F args.length) :
    ∃ o, primitiveBind f .eager g args = .ok o ∧ Returns (f.shapes (args.map Arr.shape)) (F args) o := by
  obtain ⟨o, h1, h2⟩ := h.unpack
  refine ⟨o, ?_, h2⟩
  simp only [primitiveBind, bindPrim, npEval]
  rw [h.take g]
  exact h1

theorem named_iff (n : Nat) : named n = true ↔ 1 ≤ n ∧ n ≤ 4 := by
  simp only [named, Bool.or_eq_true, decide_eq_true_eq]; omega

/-- C212: compiled for the CPU it returns the same, for one to four inputs and one to four outputs; compiled for the GPU it raises RuntimeError. -/
theorem C212_compiled {f : Fn K} {F : List (Arr K) → List (Arr K)} (g : Nat → List Nat → K) (args : List (Arr K)) (h : Implements f F args.length)
    (hin : 1 ≤ args.length ∧ args.length ≤ 4) (hout : 1 ≤ (F args).length ∧ (F args).length ≤ 4) :
    (∃ o, primitiveBind f .cpu g args = .ok o ∧ Returns (f.shapes (args.map Arr.shape)) (F args) o) ∧
    primitiveBind f .gpu g args = .error .runtimeError := by
  refine ⟨?_, rfl⟩
  obtain ⟨o, h1, h2⟩ := h.unpack
  refine ⟨o, ?_, h2⟩
  have hl : (f.shapes (args.map Arr.shape)).always.length = (F args).length := by rw [← h.shape args rfl, List.length_map]
  have e1 : named (f.shapes (args.map Arr.shape)).always.length = true := by rw [hl]; exact (named_iff _).2 hout
  have e2 : named args.length = true := (named_iff _).2 hin
  simp only [primitiveBind, bindPrim, xlaCpu, e1, e2, Bool.and_self, if_true]
  rw [h.take g]
  exact h1

/-! ### vmap -/

theorem row_shapes (args : List (Arr K)) (i : Nat) : (args.map (·.row i)).map Arr.shape = args.map (·.shape.tail) := by
  rw [List.map_map]; rfl

theorem mapBody_eq {f : Fn K} {F : List (Arr K) → List (Arr K)} (g : Nat → Nat → List Nat → K) (args : List (Arr K)) (h : Implements f F args.length)
    (hin : named args.length = true) (hout : named (f.shapes (args.map (·.shape.tail))).always.length = true) (i n : Nat) :
    ∃ os, mapBody f g args i n = .ok os ∧
      List.Forall₂ (fun k o => Returns (f.shapes (args.map (·.shape.tail))) (F (args.map (·.row k))) o) (List.range' i n) os := by
  induction n generalizing i with
  | zero => exact ⟨[], rfl, List.Forall₂.nil⟩
  | succ n ih =>
    have hl : (F (args.map (·.row i))).length = (f.shapes (args.map (·.shape.tail))).always.length := by
      have := congrArg List.length (h.shape (args.map (·.row i)) (List.length_map _))
      rwa [List.length_map, row_shapes] at this
    obtain ⟨⟨o, ho, hr⟩, _⟩ := C212_compiled (g i) (args.map (·.row i)) (by rw [List.length_map]; exact h) (by rw [List.length_map]; exact (named_iff _).1 hin)
      (by rw [hl]; exact (named_iff _).1 hout)
    obtain ⟨os, hos, hf⟩ := ih (i + 1)
    refine ⟨o :: os, ?_, ?_⟩
    · rw [mapBody, ho]
      dsimp only
      rw [hos]
    · rw [List.range'_succ]
      rw [row_shapes] at hr
      exact List.Forall₂.cons hr hf

theorem batchSize_zero (args : List (Arr K)) (n : Nat) (h0 : args ≠ []) (hs : ∀ a ∈ args, a.shape.head? = some n) :
    batchSize args (List.replicate args.length (some 0)) = .ok n ∧ mapLength args = .ok n := by
  have key : ∀ l : List (Arr K), (∀ a ∈ l, a.shape.head? = some n) →
      mappedSizes l (List.replicate l.length (some 0)) = List.replicate l.length (some n) ∧ l.map leading = List.replicate l.length (some n) := by
    intro l
    induction l with
    | nil => intro _; exact ⟨rfl, rfl⟩
    | cons a l ih =>
      intro hl
      obtain ⟨a1, a2⟩ := ih fun b hb => hl b (List.mem_cons_of_mem _ hb)
      have ha := hl a List.mem_cons_self
      simp only [List.length_cons, List.replicate_succ, mappedSizes, List.map_cons, a1, a2, leading, ha, axisSize, and_true]
      rw [← List.head?_eq_getElem?, ha]
  obtain ⟨k1, k2⟩ := key args hs
  cases args with
  | nil => exact absurd rfl h0
  | cons a l =>
    simp only [batchSize, List.length_replicate, ne_eq, not_true, if_false, k1, mapLength, k2]
    simp [List.replicate_succ]

theorem zero_shapes (args : List (Arr K)) :
    List.zipWith elemShape args (List.replicate args.length (some 0)) = args.map (·.shape.tail) := by
  induction args with
  | nil => rfl
  | cons a l ih => simp [List.replicate_succ, ih, elemShape, List.eraseIdx_zero]

variable [Inhabited K]

theorem allToFront_zero (n : Nat) (l : List (Arr K)) (hl : ∀ a ∈ l, a.shape ≠ []) :
    ∃ bs, allToFront n l (List.replicate l.length (some 0)) = .ok bs ∧
      List.Forall₂ (fun a b => b.shape = a.shape ∧ ∀ i, b.row i = a.row i) l bs := by
  induction l with
  | nil => exact ⟨[], rfl, List.Forall₂.nil⟩
  | cons a l ih =>
    obtain ⟨bs, h1, h2⟩ := ih fun b hb => hl b (List.mem_cons_of_mem _ hb)
    rcases hs : a.shape with _ | ⟨m, s⟩
    · exact absurd hs (hl a List.mem_cons_self)
    have ht : ∃ b, toFront n a (some 0) = .ok b ∧ b.shape = a.shape ∧ ∀ i, b.row i = a.row i := by
      simp only [toFront, hs, List.getElem?_cons_zero, Except.ok.injEq, exists_eq_left']
      exact ⟨rfl, fun i => by simp [Arr.row, hs]⟩
    obtain ⟨b, t1, t2⟩ := ht
    refine ⟨b :: bs, ?_, List.Forall₂.cons (hs ▸ t2) h2⟩
    simp only [List.length_cons, List.replicate_succ, allToFront, t1, h1]

/-- C212: `vmap` along the first axes of all arguments, for functions which return a collection of as many arrays as they have arguments (at most four):
    row `i` of the results is the result for the rows `i` of the arguments. -/
theorem C212_vmap {f : Fn K} {F : List (Arr K) → List (Arr K)} (g : Nat → Nat → List Nat → K) (args : List (Arr K)) (h : Implements f F args.length) (n : Nat)
    (l : List (List Nat)) (hl : f.shapes (args.map (·.shape.tail)) = .many l) (hs : ∀ a ∈ args, a.shape.head? = some n)
    (hin : 1 ≤ args.length ∧ args.length ≤ 4) (hout : l.length = args.length) :
    ∃ bs, vmap f g (List.replicate args.length (some 0)) args = .ok (.many bs) ∧ bs.map Arr.shape = l.map (n :: ·) ∧
      ∀ i < n, bs.map (·.row i) = F (args.map (·.row i)) := by
  have h0 : args ≠ [] := by rintro rfl; simp at hin
  obtain ⟨b1, b2⟩ := batchSize_zero args n h0 hs
  have e1 : named args.length = true := (named_iff _).2 hin
  have e2 : named (f.shapes (args.map (·.shape.tail))).always.length = true := by rw [hl]; simp only [Shapes.always, hout, e1]
  obtain ⟨os, hos, hf⟩ := mapBody_eq g args h e1 e2 0 n
  rw [hl] at hf
  have hlen : os.length = n := by rw [← hf.length_eq, List.length_range']
  have hF : ∀ i, (F (args.map (·.row i))).map Arr.shape = l := by
    intro i
    rw [h.shape _ (List.length_map _), row_shapes, hl, Shapes.always]
  have hget : ∀ i < n, os[i]? = some (.many (F (args.map (·.row i)))) := by
    intro i hi
    have := List.forall₂_iff_get.1 hf
    have hi' : i < os.length := by omega
    have hh := this.2 i (by simpa using hi) hi'
    simp only [List.get_eq_getElem, List.getElem_range', Nat.zero_add, Nat.one_mul, Returns] at hh
    rw [List.getElem?_eq_getElem hi', hh]
  obtain ⟨bs, c1, c2⟩ := allToFront_zero n (tupleOf (.many l) os) (by
    intro a ha
    simp only [tupleOf, List.mem_mapIdx] at ha
    obtain ⟨j, hj, rfl⟩ := ha
    simp [stack])
  have hos' : os = (List.range n).map fun i => Out.many (F (args.map (·.row i))) := by
    refine List.ext_getElem? fun i => ?_
    by_cases hi : i < n
    · rw [hget i hi, List.getElem?_map, List.getElem?_range hi]; rfl
    · rw [List.getElem?_eq_none (by omega), List.getElem?_eq_none (by simp; omega)]
  have hcol : ∀ j, j < l.length → ∃ col : List (Arr K), os.filterMap (fun o => o.arrays[j]?) = col ∧ col.length = n ∧
      ∀ i < n, col[i]? = (F (args.map (·.row i)))[j]? := by
    intro j hj
    have hFj : ∀ i, j < (F (args.map (·.row i))).length := fun i => by
      have := congrArg List.length (hF i)
      rw [List.length_map] at this; omega
    refine ⟨(List.range n).map fun i => (F (args.map (·.row i)))[j]'(hFj i), ?_, by simp, ?_⟩
    · rw [hos', List.filterMap_map]
      rw [← List.filterMap_eq_map]
      refine List.filterMap_congr fun i _ => ?_
      simp only [Function.comp, Out.arrays]
      rw [List.getElem?_eq_getElem (hFj i)]
    · intro i hi
      rw [List.getElem?_map, List.getElem?_range hi, List.getElem?_eq_getElem (hFj i)]; rfl
  have htl : (tupleOf (.many l) os).length = args.length := by simp [tupleOf, hout]
  refine ⟨bs, ?_, ?_, ?_⟩
  · simp only [vmap, b1, naiveBatching, b2, e1, e2, Bool.and_self, if_true, hos, hl]
    rw [hl] at e2
    simp only [e2, Bool.and_self, if_true, htl, List.length_replicate, ne_eq, not_true, if_false, zero_shapes, hl]
    rw [← htl, c1]
  · have : bs.map Arr.shape = (tupleOf (.many l) os).map Arr.shape := by
      refine List.ext_getElem (by simp [c2.length_eq]) fun i h1 h2 => ?_
      have := (List.forall₂_iff_get.1 c2).2 i (by simpa using h2) (by simpa using h1)
      simpa using this.1
    rw [this]
    refine List.ext_getElem (by simp [tupleOf]) fun j h1 h2 => ?_
    obtain ⟨col, hc, hcl, _⟩ := hcol j (by simpa using h2)
    simp [tupleOf, stack, hc, hcl]
  · intro i hi
    have : bs.map (·.row i) = (tupleOf (.many l) os).map (·.row i) := by
      refine List.ext_getElem (by simp [c2.length_eq]) fun j h1 h2 => ?_
      have := (List.forall₂_iff_get.1 c2).2 j (by simpa using h2) (by simpa using h1)
      simpa using this.2 i
    rw [this]
    have hFl : (F (args.map (·.row i))).length = l.length := by
      have := congrArg List.length (hF i)
      rwa [List.length_map] at this
    refine List.ext_getElem (by simp [tupleOf, hFl]) fun j h1 h2 => ?_
    have hj : j < l.length := by omega
    obtain ⟨col, hc, hcl, hcg⟩ := hcol j hj
    have hsj : (F (args.map (·.row i)))[j].shape = l[j] := by
      have := hF i
      have h3 := congrArg (fun m => m[j]?) this
      simp only [List.getElem?_map, List.getElem?_eq_getElem h2, List.getElem?_eq_getElem hj, Option.map_some, Option.some.injEq] at h3
      exact h3
    simp only [tupleOf, List.getElem_map, List.getElem_mapIdx, Arr.row, stack, hc, List.tail_cons]
    have := hcg i hi
    rw [List.getElem?_eq_getElem h2] at this
    simp only [this]
    exact congrArg₂ Arr.mk hsj.symm rfl

/-! ### deviations -/

omit [Inhabited K] in
/-- C213: "Create a jittable JAX function": with more than four (or no) inputs or outputs the function works outside of jit, but compiling it always fails. -/
theorem C213_compiled_refuted {f : Fn K} {F : List (Arr K) → List (Arr K)} (g : Nat → List Nat → K) (args : List (Arr K)) (h : Implements f F args.length)
    (hn : args.length = 0 ∨ 4 < args.length ∨ (F args).length = 0 ∨ 4 < (F args).length) :
    (∃ o, primitiveBind f .eager g args = .ok o) ∧ primitiveBind f .cpu g args = .error .unboundLocal := by
  refine ⟨(C212_eager g args h).imp fun _ ho => ho.1, ?_⟩
  have hl : (f.shapes (args.map Arr.shape)).always.length = (F args).length := by rw [← h.shape args rfl, List.length_map]
  have : (named (F args).length && named args.length) = false := by
    rw [Bool.eq_false_iff, ne_eq, Bool.and_eq_true, named_iff, named_iff]
    omega
  simp [primitiveBind, bindPrim, xlaCpu, hl, this]

/-- C213: "Batching along the first axes is implemented": for functions with different numbers of inputs and outputs, as the documented example with three inputs
    and two outputs, `vmap` along the first axes always raises AssertionError. -/
theorem C213_vmap_count_refuted {f : Fn K} {F : List (Arr K) → List (Arr K)} (g : Nat → Nat → List Nat → K) (args : List (Arr K)) (h : Implements f F args.length) (n : Nat)
    (l : List (List Nat)) (hl : f.shapes (args.map (·.shape.tail)) = .many l) (hs : ∀ a ∈ args, a.shape.head? = some n)
    (hin : 1 ≤ args.length ∧ args.length ≤ 4) (hout : 1 ≤ l.length ∧ l.length ≤ 4) (hne : l.length ≠ args.length) :
    vmap f g (List.replicate args.length (some 0)) args = .error .assertionError := by
  have h0 : args ≠ [] := by rintro rfl; simp at hin
  obtain ⟨b1, b2⟩ := batchSize_zero args n h0 hs
  have e1 : named args.length = true := (named_iff _).2 hin
  have e2 : named (f.shapes (args.map (·.shape.tail))).always.length = true := by rw [hl]; exact (named_iff _).2 hout
  obtain ⟨os, hos, -⟩ := mapBody_eq g args h e1 e2 0 n
  have htl : (tupleOf (.many l) os).length = l.length := by simp [tupleOf]
  simp only [vmap, b1, naiveBatching, b2, e1, e2, Bool.and_self, if_true, hos]
  rw [hl]
  simp only [htl, List.length_replicate, ne_eq, hne, not_false_eq_true, if_true]

/-- C213: for functions which return one array, `vmap` along the first axes raises AssertionError unless there is exactly one row, and then the
    result is without the batch axis. -/
theorem C213_vmap_single_refuted {f : Fn K} {F : List (Arr K) → List (Arr K)} (g : Nat → Nat → List Nat → K) (args : List (Arr K)) (h : Implements f F args.length) (n : Nat)
    (s : List Nat) (hl : f.shapes (args.map (·.shape.tail)) = .one s) (hs : ∀ a ∈ args, a.shape.head? = some n)
    (hin : 1 ≤ args.length ∧ args.length ≤ 4) :
    (n ≠ 1 → vmap f g (List.replicate args.length (some 0)) args = .error .assertionError) ∧
    ∀ o, vmap f g (List.replicate args.length (some 0)) args = .ok o → ∃ b, o = .one b ∧ b.shape = s := by
  have h0 : args ≠ [] := by rintro rfl; simp at hin
  obtain ⟨b1, b2⟩ := batchSize_zero args n h0 hs
  have e1 : named args.length = true := (named_iff _).2 hin
  have e2 : named (f.shapes (args.map (·.shape.tail))).always.length = true := by rw [hl]; rfl
  obtain ⟨os, hos, hf⟩ := mapBody_eq g args h e1 e2 0 n
  have hlen : os.length = n := by rw [← hf.length_eq, List.length_range']
  have htl : (tupleOf (.one s) os).length = n := by simp [tupleOf, hlen]
  have hv : vmap f g (List.replicate args.length (some 0)) args =
      if (tupleOf (.one s) os).length ≠ (List.replicate args.length (some 0)).length then .error .assertionError
      else match tupleOf (.one s) os, List.replicate args.length (some 0) with
        | [a], [d] => match toFront n a d with
          | .error e => .error e
          | .ok b => .ok (.one b)
        | _, _ => .error .assertionError := by
    simp only [vmap, b1, naiveBatching, b2, e1, e2, Bool.and_self, if_true, hos]
    rw [hl]
    simp only [zero_shapes, hl]
    rfl
  rw [hv, htl, List.length_replicate]
  by_cases hn : n = args.length
  · rw [if_neg (not_not.2 hn)]
    by_cases h1 : n = 1
    · refine ⟨fun hh => absurd h1 hh, fun o ho => ?_⟩
      subst h1
      rw [← hn] at ho
      have ht : tupleOf (.one s) os = [(stack s (os.flatMap Out.arrays)).row 0] := by simp [tupleOf, hlen]
      rw [ht] at ho
      simp only [List.replicate_succ, List.replicate_zero, toFront, Arr.row, stack, List.tail_cons] at ho
      cases s with
      | nil => simp at ho
      | cons m s =>
        simp only [List.getElem?_cons_zero, Except.ok.injEq] at ho
        exact ⟨_, ho.symm, rfl⟩
    · have hm : ∀ (r : List (Arr K)) (d : List (Option Nat)), r.length = n → (match r, d with
        | [a], [d] => match toFront n a d with
          | .error e => .error e
          | .ok b => .ok (.one b)
        | _, _ => .error .assertionError) = (.error .assertionError : Except Err (Out K)) := by
        intro r d hr
        rcases r with _ | ⟨a, _ | ⟨b, r⟩⟩
        · rfl
        · exact absurd hr.symm h1
        · rfl
      rw [hm _ _ htl]
      exact ⟨fun _ => rfl, fun o ho => by cases ho⟩
  · rw [if_pos hn]
    exact ⟨fun _ => rfl, fun o ho => by cases ho⟩

/-- C213: an argument that is not mapped, with the size of the batch along its first axis: instead of the array, its row `i` is used for row `i` of the other argument
    (without an error if the declared shapes allow it), and the corresponding result is repeated with one axis too many. -/
theorem C213_unmapped_refuted {f : Fn K} {F : List (Arr K) → List (Arr K)} (h : Implements f F 2) (g : Nat → Nat → List Nat → K) (x y : Arr K) (n : Nat)
    (s t : List Nat) (l : List (List Nat)) (hl : f.shapes [x.shape.tail, y.shape.tail] = .many [s, t]) (hl' : f.shapes [x.shape.tail, y.shape] = .many l)
    (hx : x.shape.head? = some n) (hy : y.shape.head? = some n) :
    ∃ b c, vmap f g [some 0, none] [x, y] = .ok (.many [b, c]) ∧ b.shape = n :: s ∧ c.shape = n :: n :: t ∧
      ∀ i < n, ∀ j, F [x.row i, y.row i] = [b.row i, (c.row j).row i] := by
  have e2 : named (f.shapes ([x, y].map (·.shape.tail))).always.length = true := by simp only [List.map_cons, List.map_nil, hl]; rfl
  obtain ⟨os, hos, hf⟩ := mapBody_eq g [x, y] h rfl e2 0 n
  simp only [List.map_cons, List.map_nil, hl, Returns] at hf
  have hlen : os.length = n := by rw [← hf.length_eq, List.length_range']
  have hF : ∀ i, ∃ u v, F [x.row i, y.row i] = [u, v] ∧ u.shape = s ∧ v.shape = t := by
    intro i
    have := h.shape [x.row i, y.row i] rfl
    simp only [List.map_cons, List.map_nil] at this
    rw [show f.shapes [(x.row i).shape, (y.row i).shape] = .many [s, t] from hl] at this
    rcases hh : F [x.row i, y.row i] with _ | ⟨u, _ | ⟨v, _ | ⟨w, r⟩⟩⟩ <;> rw [hh] at this <;> simp [Shapes.always] at this
    exact ⟨u, v, rfl, this.1, this.2⟩
  choose u v huv hu hv using hF
  have hos' : os = (List.range n).map fun i => Out.many [u i, v i] := by
    refine List.ext_getElem? fun i => ?_
    by_cases hi : i < n
    · have hi' : i < os.length := by omega
      have hh := (List.forall₂_iff_get.1 hf).2 i (by simpa using hi) hi'
      simp only [List.get_eq_getElem, List.getElem_range', Nat.zero_add, Nat.one_mul, huv] at hh
      rw [List.getElem?_map, List.getElem?_range hi, List.getElem?_eq_getElem hi', hh]; rfl
    · rw [List.getElem?_eq_none (by omega), List.getElem?_eq_none (by simp; omega)]
  have c1 : os.filterMap (fun o => o.arrays[0]?) = (List.range n).map u := by
    rw [hos', List.filterMap_map, ← List.filterMap_eq_map]; rfl
  have c2 : os.filterMap (fun o => o.arrays[1]?) = (List.range n).map v := by
    rw [hos', List.filterMap_map, ← List.filterMap_eq_map]; rfl
  have hb : batchSize [x, y] [some 0, none] = .ok n := by
    rcases hxs : x.shape with _ | ⟨m, r⟩
    · rw [hxs] at hx; cases hx
    · rw [hxs] at hx
      simp only [List.head?_cons, Option.some.injEq] at hx
      simp [batchSize, mappedSizes, axisSize, hxs, hx]
  have hm : mapLength [x, y] = .ok n := by simp [mapLength, leading, hx, hy]
  have hz : f.shapes (List.zipWith elemShape [x, y] [some 0, none]) = .many l := by
    simp only [List.zipWith_cons_cons, List.zipWith_nil_left, elemShape, List.eraseIdx_zero, hl']
  have ht : tupleOf (.many [s, t]) os = [stack s ((List.range n).map u), stack t ((List.range n).map v)] := by
    simp only [tupleOf, List.mapIdx_cons, List.mapIdx_nil, c1]
    congr 2
    exact congrArg (stack t) c2
  simp only [vmap, hb, naiveBatching, hm, e2, hos]
  simp only [List.map_cons, List.map_nil, hl, ht, hz]
  simp only [show named [x, y].length = true from rfl, Bool.and_self, if_true, List.length_cons, List.length_nil, ne_eq, not_true, if_false, allToFront, toFront,
    stack, List.getElem?_cons_zero, Except.ok.injEq, Out.many.injEq]
  refine ⟨_, _, rfl, ?_, ?_, ?_⟩
  · simp
  · simp
  · intro i hi j
    rw [huv]
    simp only [Arr.row, List.tail_cons, List.eraseIdx_zero, List.insertIdx_zero, List.getElem?_map, List.getElem?_range hi, Option.map_some]
    rw [← hu i, ← hv i]

/-- C213: `vmap` along the second axis of the argument of a function with one argument: the function is applied to the rows along the first axis. -/
theorem C213_axis_refuted {f : Fn K} {F : List (Arr K) → List (Arr K)} (h : Implements f F 1) (g : Nat → Nat → List Nat → K) (x : Arr K) (n m k : Nat)
    (r s : List Nat) (l : List (List Nat)) (hx : x.shape = n :: m :: r) (hl : f.shapes [m :: r] = .many [k :: s]) (hl' : f.shapes [n :: r] = .many l) :
    ∃ b, vmap f g [some 1] [x] = .ok (.many [b]) ∧ b.shape = k :: n :: s ∧
      ∀ i < n, ∃ c, F [x.row i] = [c] ∧ ∀ j idx, b.entry (j :: i :: idx) = c.entry (j :: idx) := by
  have hxt : ([x].map fun a : Arr K => a.shape.tail) = [m :: r] := by simp [hx]
  have e2 : named (f.shapes ([x].map (·.shape.tail))).always.length = true := by rw [hxt, hl]; rfl
  obtain ⟨os, hos, hf⟩ := mapBody_eq g [x] h rfl e2 0 n
  rw [hxt, hl] at hf
  simp only [List.map_cons, List.map_nil, Returns] at hf
  have hlen : os.length = n := by rw [← hf.length_eq, List.length_range']
  have hF : ∀ i, ∃ u, F [x.row i] = [u] ∧ u.shape = k :: s := by
    intro i
    have := h.shape [x.row i] rfl
    simp only [List.map_cons, List.map_nil] at this
    rw [show f.shapes [(x.row i).shape] = .many [k :: s] by rw [← hl]; simp [Arr.row, hx]] at this
    rcases hh : F [x.row i] with _ | ⟨u, _ | ⟨v, r⟩⟩ <;> rw [hh] at this <;> simp [Shapes.always] at this
    exact ⟨u, rfl, this⟩
  choose u hu hus using hF
  have hos' : os = (List.range n).map fun i => Out.many [u i] := by
    refine List.ext_getElem? fun i => ?_
    by_cases hi : i < n
    · have hi' : i < os.length := by omega
      have hh := (List.forall₂_iff_get.1 hf).2 i (by simpa using hi) hi'
      simp only [List.get_eq_getElem, List.getElem_range', Nat.zero_add, Nat.one_mul, hu] at hh
      rw [List.getElem?_map, List.getElem?_range hi, List.getElem?_eq_getElem hi', hh]; rfl
    · rw [List.getElem?_eq_none (by omega), List.getElem?_eq_none (by simp; omega)]
  have c1 : os.filterMap (fun o => o.arrays[0]?) = (List.range n).map u := by
    rw [hos', List.filterMap_map, ← List.filterMap_eq_map]; rfl
  have hb : batchSize [x] [some 1] = .ok m := by simp [batchSize, mappedSizes, axisSize, hx]
  have hm : mapLength [x] = .ok n := by simp [mapLength, leading, hx]
  have hz : f.shapes (List.zipWith elemShape [x] [some 1]) = .many l := by
    rw [← hl']; simp [elemShape, hx]
  have ht : tupleOf (.many [k :: s]) os = [stack (k :: s) ((List.range n).map u)] := by
    simp only [tupleOf, List.mapIdx_cons, List.mapIdx_nil, c1]
  simp only [vmap, hb, naiveBatching, hm, e2, hos]
  rw [hxt, hl]
  simp only [ht, hz]
  simp only [show named [x].length = true from rfl, Bool.and_self, if_true, List.length_cons, List.length_nil, ne_eq, not_true, if_false, allToFront, toFront,
    stack, List.getElem?_cons_succ, List.getElem?_cons_zero, Except.ok.injEq, Out.many.injEq]
  refine ⟨_, rfl, by simp, fun i hi => ⟨u i, hu i, fun j idx => ?_⟩⟩
  simp [List.getElem?_range hi]

/-! ### examples -/

/-- the documented example (numba4jax.py:22-30, 44-49). -/
def addAndMul : Fn ℤ :=
  ⟨fun l => match l with
    | [o₁, o₂, a, b, c] => [⟨o₁.shape, fun i => a.entry i + b.entry i⟩, ⟨o₂.shape, fun i => a.entry i * c.entry i⟩, a, b, c]
    | l => l,
   fun l => match l with
    | [s, _, _] => .many [s, s]
    | _ => .many []⟩

/-- its results. -/
def addAndMulF (l : List (Arr ℤ)) : List (Arr ℤ) := match l with
  | [a, b, c] => [⟨a.shape, fun i => a.entry i + b.entry i⟩, ⟨a.shape, fun i => a.entry i * c.entry i⟩]
  | _ => []

theorem addAndMul_implements : Implements addAndMul addAndMulF 3 := by
  constructor
  · intro outs args hk ho
    match args, hk with
    | [a, b, c], _ =>
      have hl : outs.length = 2 := (List.length_map _).symm.trans (congrArg List.length ho)
      match outs, hl, ho with
      | [o₁, o₂], _, ho =>
        simp only [addAndMul, List.map_cons, List.map_nil, Shapes.always, List.cons.injEq, and_true] at ho
        simp [addAndMul, addAndMulF, ho.1, ho.2]
  · intro args hk
    match args, hk with
    | [a, b, c], _ => rfl

/-- sum and difference of two arrays; the shapes are declared in advance (numba4jax.py:310-333). -/
def mix : Fn ℤ := njit4jax (.many [[2], [2]]) fun l => match l with
  | [_, _, a, b] => [⟨[2], fun i => a.entry i + b.entry i⟩, ⟨[2], fun i => a.entry i - b.entry i⟩, a, b]
  | l => l

/-- its results. -/
def mixF (l : List (Arr ℤ)) : List (Arr ℤ) := match l with
  | [a, b] => [⟨[2], fun i => a.entry i + b.entry i⟩, ⟨[2], fun i => a.entry i - b.entry i⟩]
  | _ => []

theorem mix_implements : Implements mix mixF 2 := by
  constructor
  · intro outs args hk ho
    match args, hk with
    | [a, b], _ =>
      have hl : outs.length = 2 := (List.length_map _).symm.trans (congrArg List.length ho)
      match outs, hl with
      | [_, _], _ => rfl
  · intro args hk
    match args, hk with
    | [a, b], _ => rfl

/-- the sum of five numbers. -/
def sum5 : Fn ℤ := njit4jax (.one []) fun l => match l with
  | [_, a, b, c, d, e] => [⟨[], fun i => a.entry i + b.entry i + c.entry i + d.entry i + e.entry i⟩, a, b, c, d, e]
  | l => l

/-- its results. -/
def sum5F (l : List (Arr ℤ)) : List (Arr ℤ) := match l with
  | [a, b, c, d, e] => [⟨[], fun i => a.entry i + b.entry i + c.entry i + d.entry i + e.entry i⟩]
  | _ => []

theorem sum5_implements : Implements sum5 sum5F 5 := by
  constructor
  · intro outs args hk ho
    match args, hk with
    | [a, b, c, d, e], _ =>
      have hl : outs.length = 1 := (List.length_map _).symm.trans (congrArg List.length ho)
      match outs, hl with
      | [_], _ => rfl
  · intro args hk
    match args, hk with
    | [a, b, c, d, e], _ => rfl

/-- twice an array, returned as one array. -/
def twice : Fn ℤ := ⟨fun l => match l with
    | [_, a] => [⟨a.shape, fun i => 2 * a.entry i⟩, a]
    | l => l, fun l => .one (l.headD [])⟩

/-- its results. -/
def twiceF (l : List (Arr ℤ)) : List (Arr ℤ) := match l with
  | [a] => [⟨a.shape, fun i => 2 * a.entry i⟩]
  | _ => []

theorem twice_implements : Implements twice twiceF 1 := by
  constructor
  · intro outs args hk ho
    match args, hk with
    | [a], _ =>
      have hl : outs.length = 1 := (List.length_map _).symm.trans (congrArg List.length ho)
      match outs, hl with
      | [_], _ => rfl
  · intro args hk
    match args, hk with
    | [a], _ => rfl

/-- running sums of a vector of two entries, returned in a collection. -/
def sums : Fn ℤ := njit4jax (.many [[2]]) fun l => match l with
  | [_, a] => [⟨[2], fun i => if i = [1] then a.entry [0] + a.entry [1] else a.entry i⟩, a]
  | l => l

/-- its results. -/
def sumsF (l : List (Arr ℤ)) : List (Arr ℤ) := match l with
  | [a] => [⟨[2], fun i => if i = [1] then a.entry [0] + a.entry [1] else a.entry i⟩]
  | _ => []

theorem sums_implements : Implements sums sumsF 1 := by
  constructor
  · intro outs args hk ho
    match args, hk with
    | [a], _ =>
      have hl : outs.length = 1 := (List.length_map _).symm.trans (congrArg List.length ho)
      match outs, hl with
      | [_], _ => rfl
  · intro args hk
    match args, hk with
    | [a], _ => rfl

/-- an array of the numbers 10 i + j. -/
def grid (s : List Nat) : Arr ℤ := ⟨s, fun idx => idx.foldl (fun (acc : ℤ) (i : Nat) => 10 * acc + (i : ℤ)) 0⟩

example (g : Nat → List Nat → ℤ) : ∃ a b, primitiveBind addAndMul .cpu g [grid [3], grid [3], grid [3]] = .ok (.many [a, b]) ∧ a.entry [2] = 4 ∧ b.entry [2] = 4 := by
  obtain ⟨⟨o, ho, hr⟩, _⟩ := C212_compiled g [grid [3], grid [3], grid [3]] addAndMul_implements (by simp) (by simp [addAndMulF])
  refine ⟨_, _, ho.trans (congrArg _ hr), ?_, ?_⟩ <;> rfl

example (g : Nat → Nat → List Nat → ℤ) : ∃ bs, vmap mix g [some 0, some 0] [grid [3, 2], grid [3, 2]] = .ok (.many bs) ∧
    bs.map Arr.shape = [[3, 2], [3, 2]] :=
  (C212_vmap g [grid [3, 2], grid [3, 2]] mix_implements 3 [[2], [2]] rfl (by simp [grid]) (by simp) rfl).imp fun _ h => ⟨h.1, h.2.1⟩

example (g : Nat → List Nat → ℤ) : primitiveBind sum5 .cpu g (List.replicate 5 (grid [])) = .error .unboundLocal :=
  (C213_compiled_refuted g (List.replicate 5 (grid [])) sum5_implements (by simp)).2

example (g : Nat → Nat → List Nat → ℤ) : vmap addAndMul g [some 0, some 0, some 0] (List.replicate 3 (grid [4, 2])) = .error .assertionError :=
  C213_vmap_count_refuted g (List.replicate 3 (grid [4, 2])) addAndMul_implements 4 [[2], [2]] rfl (by simp [grid]) (by simp) (by simp) (by simp)

example (g : Nat → Nat → List Nat → ℤ) : vmap twice g [some 0] [grid [4, 2]] = .error .assertionError :=
  (C213_vmap_single_refuted g [grid [4, 2]] twice_implements 4 [2] rfl (by simp [grid]) (by simp)).1 (by norm_num)

example (g : Nat → Nat → List Nat → ℤ) : ∃ b c, vmap mix g [some 0, none] [grid [2, 2], grid [2]] = .ok (.many [b, c]) ∧ b.shape = [2, 2] ∧ c.shape = [2, 2, 2] :=
  let ⟨b, c, h⟩ := C213_unmapped_refuted mix_implements g (grid [2, 2]) (grid [2]) 2 [2] [2] [[2], [2]] rfl rfl rfl rfl
  ⟨b, c, h.1, h.2.1, h.2.2.1⟩

example (g : Nat → Nat → List Nat → ℤ) : ∃ b, vmap sums g [some 1] [grid [2, 2]] = .ok (.many [b]) ∧ b.entry [1, 1] = 21 ∧
    (sumsF [⟨[2], fun i => (grid [2, 2]).entry (i ++ [1])⟩]).map (fun c => c.entry [1]) = [12] := by
  obtain ⟨b, h1, _, h3⟩ := C213_axis_refuted sums_implements g (grid [2, 2]) 2 2 2 [] [] [[2]] rfl rfl rfl
  obtain ⟨c, hc, hb⟩ := h3 1 (by norm_num)
  refine ⟨b, h1, ?_, rfl⟩
  rw [hb]
  simp only [sumsF, List.cons.injEq, and_true] at hc
  rw [← hc]
  simp [Arr.row, grid]

end Verif.Numba4jax
