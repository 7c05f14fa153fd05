import Verif.Lemmas.LocalOpHeap
import Verif.Props.LocalOperator

/-! C14: sharing of matrix buffers between operators and with the user's arrays. -/

set_option linter.unusedSectionVars false

namespace Verif.LocalOp
open Verif.Hilbert

section
variable {K : Type} [CommRing K] [DecidableEq K] [Star K] {α : Type} [LinearOrder α] [Inhabited α]
  {N : Nat} {hi : Fin N → List α} {cut : Cutoff K}

/-! ### specification: worlds -/

/-- States a program can reach: the numpy heap and the operator objects it holds (by index). Results of
    `+`, `-`, `*`, `/` are `copy` followed by in-place operations on the copy, so they are covered. -/
inductive World (cut : Cutoff K) (hi : Fin N → List α) : Heap K → List (HOp K α N) → Prop
  | start (H : Heap K) : World cut hi H []
  | userArray {H ops} (c : Cell K) : World cut hi H ops → World cut hi (H.alloc c) ops
  | userWrite {H ops} (r : Nat) (m : Mat K) : World cut hi H ops → World cut hi (H.store r m) ops
  | construct {H ops dt c args H' op} : World cut hi H ops → (∀ p ∈ args, p.1 < H.next) →
      hMk cut hi H dt c args = .ok (H', op) → World cut hi H' (ops ++ [op])
  | rebuild {H ops a f dt c H' op} : World cut hi H ops → a ∈ ops →
      hRebuild cut hi H a f dt c = .ok (H', op) → World cut hi H' (ops ++ [op])
  | iadd {H ops i a b H' op} : World cut hi H ops → ops[i]? = some a → b ∈ ops →
      hIadd cut hi H a b = .ok (H', op) → World cut hi H' (ops.set i op)
  | addConst {H ops i a} (c : K) : World cut hi H ops → ops[i]? = some a →
      World cut hi H (ops.set i (hAddConst cut H a c))
  | imul {H ops i a} (z : K) : World cut hi H ops → ops[i]? = some a →
      World cut hi (hImulScalar cut H a z).1 (ops.set i (hImulScalar cut H a z).2)

/-! ### invariant of all worlds -/

/-- supports are sorted, non-empty and pairwise different; buffers are allocated. -/
structure Supp (H : Heap K) (op : HOp K α N) : Prop where
  sorted : ∀ t ∈ op.terms, t.acting.Pairwise (· < ·) ∧ t.acting ≠ []
  nodup : (op.terms.map HTerm.acting).Nodup
  lt : ∀ t ∈ op.terms, t.ref < H.next

theorem hMerge_shape (H : Heap K) (m : Mat K) (act : List (Fin N)) (ts : List (HTerm K α N)) :
    (hMerge cut hi H m act ts = none → act ∉ ts.map HTerm.acting)
    ∧ ∀ p, hMerge cut hi H m act ts = some p →
      p.2.2.map (fun t => (t.ref, t.acting)) = ts.map (fun t => (t.ref, t.acting)) := by
  induction ts with
  | nil => simp [hMerge]
  | cons t ts ih =>
    simp only [hMerge]
    by_cases hc : t.acting = act
    · rw [if_pos hc]
      refine ⟨by simp, ?_⟩
      intro p hp
      simp only [Option.some.injEq] at hp
      subst hp; simp
    · rw [if_neg hc]
      refine ⟨?_, ?_⟩
      · intro h
        rw [Option.map_eq_none_iff] at h
        simp only [List.map_cons, List.mem_cons, not_or]
        exact ⟨fun h => hc h.symm, ih.1 h⟩
      · intro p hp
        rw [Option.map_eq_some_iff] at hp
        obtain ⟨q, hq, rfl⟩ := hp
        simp [ih.2 q hq]

theorem Supp.mono {H H' : Heap K} {op : HOp K α N} (h : Supp H op) (hn : H.next ≤ H'.next) :
    Supp H' op := ⟨h.sorted, h.nodup, fun t ht => lt_of_lt_of_le (h.lt t ht) hn⟩

theorem Supp.congr {H : Heap K} {op op' : HOp K α N} (h : Supp H op)
    (he : op'.terms.map (fun t => (t.ref, t.acting)) = op.terms.map (fun t => (t.ref, t.acting))) :
    Supp H op' := by
  have hmem : ∀ t ∈ op'.terms, ∃ u ∈ op.terms, u.ref = t.ref ∧ u.acting = t.acting := by
    intro t ht
    have : (t.ref, t.acting) ∈ op'.terms.map (fun t => (t.ref, t.acting)) :=
      List.mem_map.2 ⟨t, ht, rfl⟩
    rw [he, List.mem_map] at this
    obtain ⟨u, hu, e⟩ := this
    simp only [Prod.mk.injEq] at e
    exact ⟨u, hu, e⟩
  refine ⟨?_, ?_, ?_⟩
  · intro t ht
    obtain ⟨u, hu, _, e⟩ := hmem t ht
    rw [← e]; exact h.sorted u hu
  · have := congrArg (List.map Prod.snd) he
    simp only [List.map_map, Function.comp_def] at this
    have h2 := h.nodup
    rw [show op'.terms.map HTerm.acting = op.terms.map HTerm.acting from this]
    exact h2
  · intro t ht
    obtain ⟨u, hu, e, _⟩ := hmem t ht
    rw [← e]; exact h.lt u hu

theorem hAddSorted_supp (H : Heap K) (op : HOp K α N) (r : Nat) (act : List (Fin N))
    (hs : Supp H op) (ha : act.Pairwise (· < ·) ∧ act ≠ []) (hr : r < H.next) (p : Heap K × HOp K α N)
    (h : hAddSorted cut hi H op r act = .ok p) : H.next ≤ p.1.next ∧ Supp p.1 p.2 := by
  unfold hAddSorted at h
  have hsh := hMerge_shape (cut := cut) (hi := hi) H (H.cell r).mat act op.terms
  rcases hm : hMerge cut hi H (H.cell r).mat act op.terms with _ | ⟨a, m', ts'⟩
  · rw [hm] at h
    simp only at h
    split at h
    · simp at h
    · simp only [Except.ok.injEq] at h
      subst h
      refine ⟨le_refl _, ?_, ?_, ?_⟩
      · intro t ht
        simp only [hRefresh, List.mem_append, List.mem_singleton] at ht
        rcases ht with ht | rfl
        · exact hs.sorted t ht
        · exact ha
      · simp only [hRefresh, List.map_append, List.map_cons, List.map_nil]
        rw [List.nodup_append]
        refine ⟨hs.nodup, by simp, ?_⟩
        intro x hx y hy hxy
        rw [List.mem_singleton] at hy
        subst hy; subst hxy
        exact hsh.1 hm hx
      · intro t ht
        simp only [hRefresh, List.mem_append, List.mem_singleton] at ht
        rcases ht with ht | rfl
        · exact hs.lt t ht
        · exact hr
  · rw [hm] at h
    simp only [Except.ok.injEq] at h
    subst h
    exact ⟨le_refl _, (hs.mono (H' := H.store a m') (le_refl _)).congr (hsh.2 _ hm)⟩

theorem hAddOperator_supp (H : Heap K) (op : HOp K α N) (r : Nat) (act : List (Fin N))
    (hs : Supp H op) (ha : act ≠ []) (hr : r < H.next) (p : Heap K × HOp K α N)
    (h : hAddOperator cut hi H op r act = .ok p) : H.next ≤ p.1.next ∧ Supp p.1 p.2 := by
  unfold hAddOperator at h
  by_cases hnd : ¬ act.Nodup
  · rw [if_pos hnd] at h; simp at h
  rw [if_neg hnd] at h
  have hnd' : act.Nodup := not_not.1 hnd
  have key : ∀ (H1 : Heap K) (r1 : Nat), Supp H1 op → r1 < H1.next →
      hAddArray cut hi H1 op r1 act = .ok p → H1.next ≤ p.1.next ∧ Supp p.1 p.2 := by
    intro H1 r1 hs1 hr1 h1
    unfold hAddArray at h1
    split at h1
    · simp only [Except.ok.injEq] at h1; subst h1; exact ⟨le_refl _, hs1⟩
    · rcases hre : reorder hi (H1.cell r1).mat act with e | ⟨m', act'⟩
      · rw [hre] at h1; simp at h1
      · rw [hre] at h1
        simp only at h1
        have hact' : act' = act.insertionSort (· ≤ ·) := by
          unfold reorder at hre
          simp only at hre
          split at hre
          · rename_i he
            simp only [Except.ok.injEq, Prod.mk.injEq] at hre
            rw [← hre.2, he]
          · split at hre
            · simp only [Except.ok.injEq, Prod.mk.injEq] at hre; exact hre.2.symm
            · simp at hre
        have hperm := List.perm_insertionSort (· ≤ ·) act
        have hsorted : act'.Pairwise (· < ·) ∧ act' ≠ [] := by
          rw [hact']
          refine ⟨?_, ?_⟩
          · have h1 := List.pairwise_insertionSort (· ≤ ·) act
            have h2 : (act.insertionSort (· ≤ ·)).Nodup := hperm.nodup_iff.2 hnd'
            exact (h1.and h2).imp fun h => lt_of_le_of_ne h.1 h.2
          · intro he
            rw [he] at hperm
            exact ha hperm.nil_eq.symm
        split at h1
        · exact hAddSorted_supp H1 op r1 act' hs1 hsorted hr1 p h1
        · have := hAddSorted_supp _ op H1.next act' (hs1.mono (Nat.le_succ _)) hsorted
            (Nat.lt_succ_self _) p h1
          exact ⟨le_trans (Nat.le_succ _) this.1, this.2⟩
  unfold Heap.asarray at h
  by_cases hd : (H.cell r).dtype = op.dtype
  · simp only [if_pos hd] at h
    exact key H r hs hr h
  · simp only [if_neg hd] at h
    have := key _ _ (hs.mono (Nat.le_succ _)) (Nat.lt_succ_self _) h
    exact ⟨le_trans (Nat.le_succ _) this.1, this.2⟩

theorem hAddAll_supp (args : List (Nat × List (Fin N))) (H : Heap K) (op : HOp K α N)
    (hs : Supp H op) (hr : ∀ p ∈ args, p.1 < H.next) (p : Heap K × HOp K α N)
    (h : hAddAll cut hi H op args = .ok p) : H.next ≤ p.1.next ∧ Supp p.1 p.2 := by
  induction args generalizing H op with
  | nil => simp only [hAddAll, Except.ok.injEq] at h; subst h; exact ⟨le_refl _, hs⟩
  | cons q args ih =>
    obtain ⟨r, act⟩ := q
    rw [hAddAll] at h
    by_cases ha : act = []
    · rw [if_pos ha] at h
      exact ih H op hs (fun q hq => hr q (List.mem_cons_of_mem _ hq)) h
    · rw [if_neg ha] at h
      rcases ho : hAddOperator cut hi H op r act with e | ⟨H1, op1⟩
      · rw [ho] at h; simp at h
      · rw [ho] at h
        have h1 := hAddOperator_supp H op r act hs ha (hr _ List.mem_cons_self) _ ho
        have h2 := ih H1 op1 h1.2
          (fun q hq => lt_of_lt_of_le (hr q (List.mem_cons_of_mem _ hq)) h1.1) h
        exact ⟨le_trans h1.1 h2.1, h2.2⟩

theorem hMk_supp (args : List (Nat × List (Fin N))) (H : Heap K) (dt : Nat) (c : K)
    (hr : ∀ p ∈ args, p.1 < H.next) (p : Heap K × HOp K α N)
    (h : hMk cut hi H dt c args = .ok p) : H.next ≤ p.1.next ∧ Supp p.1 p.2 := by
  unfold hMk at h
  split at h
  · exact hAddAll_supp args H _ ⟨by simp, by simp, by simp⟩ hr p h
  · simp at h

theorem hScaleAll_next (z : K) (H : Heap K) (ts : List (HTerm K α N)) :
    (hScaleAll z H ts).next = H.next := by
  induction ts generalizing H with
  | nil => rfl
  | cons t ts ih => rw [hScaleAll, ih]; rfl

/-- every operator of every world has sorted, pairwise different supports and allocated buffers. -/
theorem World.supp {H : Heap K} {ops : List (HOp K α N)} (h : World cut hi H ops) :
    ∀ op ∈ ops, Supp H op := by
  induction h with
  | start H => simp
  | userArray c _ ih => exact fun op hop => (ih op hop).mono (Nat.le_succ _)
  | userWrite r m _ ih => exact fun op hop => (ih op hop).mono (le_refl _)
  | construct _ hr hm ih =>
    have := hMk_supp _ _ _ _ hr _ hm
    intro op hop
    rcases List.mem_append.1 hop with hop | hop
    · exact (ih op hop).mono this.1
    · rw [List.mem_singleton] at hop; subst hop; exact this.2
  | @rebuild H ops a f dt c H' op' _ ha hm ih =>
    unfold hRebuild at hm
    have hal := allocAll_spec H (a.terms.map fun t => ⟨(H.cell t.ref).dtype, f (H.cell t.ref).mat⟩)
    have := hMk_supp _ _ _ _ (by
      intro p hp
      have h1 := List.mem_map_of_mem (f := Prod.fst) hp
      rw [List.map_fst_zip (by rw [hal.1]; simp), hal.1, List.mem_map] at h1
      obtain ⟨i, hi, hii⟩ := h1
      rw [List.mem_range] at hi
      rw [← hii, hal.2.1]
      omega) _ hm
    intro op hop
    rcases List.mem_append.1 hop with hop | hop
    · exact (ih op hop).mono (le_trans (by rw [hal.2.1]; omega) this.1)
    · rw [List.mem_singleton] at hop; subst hop; exact this.2
  | @iadd H ops i a b H' op' _ ha hb hm ih =>
    unfold hIadd at hm
    rcases hall : hAddAll cut hi H a (b.terms.map fun t => (t.ref, t.acting)) with e | ⟨H1, op1⟩
    · rw [hall] at hm; simp at hm
    · rw [hall] at hm
      simp only [Except.ok.injEq, Prod.mk.injEq] at hm
      obtain ⟨rfl, rfl⟩ := hm
      have := hAddAll_supp _ H a (ih a (List.mem_of_getElem? ha)) (by
        intro p hp
        obtain ⟨t, ht, rfl⟩ := List.mem_map.1 hp
        exact (ih b hb).lt t ht) _ hall
      intro op hop
      rcases List.mem_or_eq_of_mem_set hop with hop | rfl
      · exact (ih op hop).mono this.1
      · exact this.2.congr rfl
  | @addConst H ops i a c _ ha ih =>
    intro op hop
    rcases List.mem_or_eq_of_mem_set hop with hop | rfl
    · exact ih op hop
    · exact (ih a (List.mem_of_getElem? ha)).congr rfl
  | @imul H ops i a z _ ha ih =>
    intro op hop
    rcases List.mem_or_eq_of_mem_set hop with hop | rfl
    · exact (ih op hop).mono (by simp [hImulScalar, hScaleAll_next])
    · refine ((ih a (List.mem_of_getElem? ha)).mono
        (by simp [hImulScalar, hScaleAll_next])).congr ?_
      simp [hImulScalar, Function.comp_def]

/-! ### C14: operations that return a new operator -/

theorem load_terms_map (H : Heap K) (op : HOp K α N) (f : Mat K → Mat K) :
    (op.load H).terms.map (fun t => (f t.mat, t.acting))
      = (op.terms.map fun t => (f (H.cell t.ref).mat, t.acting)) := by
  simp [HOp.load, HTerm.load, Function.comp_def]

/-- C14 (for `copy`, `transpose`, `conjugate`): in every world the call leaves all existing arrays
    (of the user and of all operators) unchanged, and its result is the value model's result. -/
theorem C14_copy_like (H : Heap K) (ops : List (HOp K α N)) (hw : World cut hi H ops)
    (a : HOp K α N) (ha : a ∈ ops) (f : Mat K → Mat K) (dt : Nat) (c : K) (v : LOp K α N)
    (hv : mk cut hi c ((a.load H).terms.map fun t => (f t.mat, t.acting)) = .ok v) :
    ∃ H' r, hRebuild cut hi H a f dt c = .ok (H', r) ∧ r.load H' = v
      ∧ (∀ x, x < H.next → H'.cell x = H.cell x) ∧ (∀ o ∈ ops, o.load H' = o.load H)
      ∧ (∀ o ∈ ops, ∀ x ∈ r.refs, x ∉ o.refs) := by
  have hs := (hw.supp a ha)
  have := hRebuild_spec (cut := cut) (hi := hi) H a f dt c hs.sorted hs.nodup
  rw [hv] at this
  obtain ⟨H', r, h1, h2, h3, h4, h5, h6, h7⟩ := this
  refine ⟨H', r, h1, h2, h7, ?_, ?_⟩
  · intro o ho
    unfold HOp.load
    congr 1
    apply load_congr
    intro t ht
    rw [h7 _ ((hw.supp o ho).lt t ht)]
  · intro o ho x hx hxo
    obtain ⟨t, ht, rfl⟩ := List.mem_map.1 hxo
    have := (hw.supp o ho).lt t ht
    have := (h4 _ hx).1
    omega

/-- C14 (for `A + B`): in every world the sum leaves all existing arrays and operators unchanged
    and its result is the value model's sum. -/
theorem C14_add (H : Heap K) (ops : List (HOp K α N)) (hw : World cut hi H ops)
    (a b : HOp K α N) (ha : a ∈ ops) (hb : b ∈ ops) (dt : Nat) (v : LOp K α N)
    (hv : add cut hi (a.load H) (b.load H) = .ok v) :
    ∃ H' r, hAdd cut hi H a b dt = .ok (H', r) ∧ r.load H' = v
      ∧ (∀ x, x < H.next → H'.cell x = H.cell x) ∧ (∀ o ∈ ops, o.load H' = o.load H) := by
  have hs := hw.supp a ha
  have hsb := hw.supp b hb
  have hcp := hRebuild_spec (cut := cut) (hi := hi) H a id dt a.constant hs.sorted hs.nodup
  unfold add copy at hv
  have e0 : (a.load H).terms.map (fun t => (id t.mat, t.acting)) = opList (a.load H) := rfl
  rw [e0] at hcp
  rcases hc : mk cut hi a.constant (opList (a.load H)) with e | a'
  · rw [show (a.load H).constant = a.constant from rfl, hc] at hv
    exact absurd hv (by simp [bind, Except.bind])
  rw [hc] at hcp
  rw [show (a.load H).constant = a.constant from rfl, hc] at hv
  simp only [bind, Except.bind] at hv
  obtain ⟨H1, r1, h1, h2, h3, h4, h5, h6, h7⟩ := hcp
  unfold iadd at hv
  have hne : ∀ p ∈ opList (b.load H), p.2 ≠ [] := by
    intro p hp
    simp only [opList, HOp.load, List.map_map, List.mem_map] at hp
    obtain ⟨t, ht, rfl⟩ := hp
    exact (hsb.sorted t ht).2
  rw [iaddTerms_eq_addAll _ _ hne] at hv
  set args := b.terms.map fun t => (t.ref, t.acting) with hargs
  have hall := hAddAll_spec (cut := cut) (hi := hi) H (H.next ≤ ·) (fun _ h => h) args H1 r1
    (by
      intro p hp
      obtain ⟨t, ht, rfl⟩ := List.mem_map.1 hp
      exact hsb.sorted t ht)
    (by simp only [hargs, List.map_map, Function.comp_def]; exact hsb.nodup)
    (by
      intro p hp
      obtain ⟨t, ht, rfl⟩ := List.mem_map.1 hp
      exact hsb.lt t ht)
    (by
      intro p hp
      obtain ⟨t, ht, rfl⟩ := List.mem_map.1 hp
      exact Nat.not_le.2 (hsb.lt t ht))
    h6
    ⟨by
      have := h3
      unfold HOp.refs at this
      rw [List.nodup_iff_pairwise_ne, List.pairwise_map] at this
      exact this.imp fun h he => absurd he h, fun x hx => (h4 x hx).2⟩
    (fun x hx _ => h7 x hx)
    (fun t ht => Or.inl (h4 _ (List.mem_map_of_mem ht)).1)
  have e1 : args.map (fun p => ((H.cell p.1).mat, p.2)) = opList (b.load H) := by
    simp [hargs, opList, HOp.load, HTerm.load, Function.comp_def]
  rw [e1, h2] at hall
  rcases hw2 : addAll cut hi a' (opList (b.load H)) with e | w
  · rw [hw2] at hv; exact absurd hv (by simp [bind, Except.bind])
  rw [hw2] at hall hv
  simp only [bind, Except.bind, pure, Except.pure, Except.ok.injEq] at hv
  obtain ⟨H2, r2, g1, g2, g3, g4, g5, g6⟩ := hall
  have hfr : ∀ x, x < H.next → H2.cell x = H.cell x := fun x hx => g6 x hx (Nat.not_le.2 hx)
  refine ⟨H2, hAddConst cut H2 r2 b.constant, ?_, ?_, hfr, ?_⟩
  · unfold hAdd hCopy
    rw [h1]
    simp only [hIadd]
    rw [← hargs, g1]
  · rw [← hv, ← g2]; rfl
  · intro o ho
    unfold HOp.load
    congr 1
    apply load_congr
    intro t ht
    rw [hfr _ ((hw.supp o ho).lt t ht)]

/-- scaling private, pairwise different buffers. -/
theorem hScaleAll_load (z : K) (ts : List (HTerm K α N)) (H : Heap K) (hn : (ts.map HTerm.ref).Nodup) :
    (∀ t ∈ ts, ((hScaleAll z H ts).cell t.ref).mat
        = ⟨(H.cell t.ref).mat.n, fun i j => (H.cell t.ref).mat.f i j * z⟩)
    ∧ ∀ x, x ∉ ts.map HTerm.ref → (hScaleAll z H ts).cell x = H.cell x := by
  induction ts generalizing H with
  | nil => simp [hScaleAll]
  | cons t ts ih =>
    rw [List.map_cons, List.nodup_cons] at hn
    obtain ⟨h1, h2⟩ := ih (H.store t.ref ⟨(H.cell t.ref).mat.n,
      fun i j => (H.cell t.ref).mat.f i j * z⟩) hn.2
    refine ⟨?_, ?_⟩
    · intro u hu
      rw [hScaleAll]
      rcases List.mem_cons.1 hu with rfl | hu
      · rw [h2 _ hn.1, store_same]
      · rw [h1 u hu, store_other]
        intro he
        exact hn.1 (he ▸ List.mem_map_of_mem hu)
    · intro x hx
      simp only [List.map_cons, List.mem_cons, not_or] at hx
      rw [hScaleAll, h2 x hx.2, store_other _ _ _ _ hx.1]

/-- C14 (for `z * A`, `-A`, `A / z`). -/
theorem C14_scalar_mul (H : Heap K) (ops : List (HOp K α N)) (hw : World cut hi H ops)
    (a : HOp K α N) (ha : a ∈ ops) (z : K) (dt : Nat) (v : LOp K α N)
    (hv : mulScalar cut hi (a.load H) z = .ok v) :
    ∃ H' r, hMulScalar cut hi H a z dt = .ok (H', r) ∧ r.load H' = v
      ∧ (∀ x, x < H.next → H'.cell x = H.cell x) ∧ (∀ o ∈ ops, o.load H' = o.load H) := by
  have hs := hw.supp a ha
  have hcp := hRebuild_spec (cut := cut) (hi := hi) H a id dt a.constant hs.sorted hs.nodup
  unfold mulScalar copy at hv
  have e0 : (a.load H).terms.map (fun t => (id t.mat, t.acting)) = opList (a.load H) := rfl
  rw [e0] at hcp
  rcases hc : mk cut hi a.constant (opList (a.load H)) with e | a'
  · rw [show (a.load H).constant = a.constant from rfl, hc] at hv
    exact absurd hv (by simp [bind, Except.bind])
  rw [hc] at hcp
  rw [show (a.load H).constant = a.constant from rfl, hc] at hv
  simp only [bind, Except.bind, pure, Except.pure, Except.ok.injEq] at hv
  obtain ⟨H1, r1, h1, h2, h3, h4, h5, h6, h7⟩ := hcp
  obtain ⟨k1, k2⟩ := hScaleAll_load z r1.terms H1 h3
  have hfr : ∀ x, x < H.next → (hScaleAll z H1 r1.terms).cell x = H.cell x := by
    intro x hx
    rw [k2 x, h7 x hx]
    intro hmem
    have := (h4 x hmem).1
    omega
  have hterms : (r1.terms.map fun t => { t with diag := fun i => t.diag i * z, conn := fun i => (t.conn i).map fun p => (p.1 * z, p.2) : HTerm K α N }).map
        (HTerm.load (hScaleAll z H1 r1.terms))
      = (r1.terms.map (HTerm.load H1)).map (scaleTerm z) := by
    rw [List.map_map, List.map_map]
    apply List.map_congr_left
    intro t ht
    simp only [Function.comp, HTerm.load, scaleTerm, k1 t ht]
  refine ⟨(hImulScalar cut H1 r1 z).1, (hImulScalar cut H1 r1 z).2, ?_, ?_, hfr, ?_⟩
  · unfold hMulScalar hCopy
    rw [h1]
  · rw [← hv, ← h2]
    unfold hImulScalar imulScalar HOp.load
    simp only
    rw [hterms]
  · intro o ho
    unfold HOp.load
    congr 1
    apply load_congr
    intro t ht
    rw [show (hImulScalar cut H1 r1 z).1 = hScaleAll z H1 r1.terms from rfl,
      hfr _ ((hw.supp o ho).lt t ht)]

/-- C14 (for `A += B` for an operator `A` that shares no buffer with anybody, like the result of
    `copy`): only `A` changes, and it becomes the value model's sum. -/
theorem C14_iadd_unshared (H : Heap K) (ops : List (HOp K α N)) (hw : World cut hi H ops)
    (i : Nat) (a b : HOp K α N) (ha : ops[i]? = some a) (hb : b ∈ ops)
    (hown : a.refs.Nodup) (hsh : ∀ j o, j ≠ i → ops[j]? = some o → ∀ x ∈ a.refs, x ∉ o.refs)
    (hab : ∀ x ∈ a.refs, x ∉ b.refs) (v : LOp K α N)
    (hv : iadd cut hi (a.load H) (b.load H) = .ok v) :
    ∃ H' r, hIadd cut hi H a b = .ok (H', r) ∧ r.load H' = v
      ∧ (∀ x, x < H.next → x ∉ a.refs → H'.cell x = H.cell x)
      ∧ (∀ j o, j ≠ i → ops[j]? = some o → o.load H' = o.load H) := by
  have hsa := hw.supp a (List.mem_of_getElem? ha)
  have hsb := hw.supp b hb
  have hne : ∀ p ∈ opList (b.load H), p.2 ≠ [] := by
    intro p hp
    simp only [opList, HOp.load, List.map_map, List.mem_map] at hp
    obtain ⟨t, ht, rfl⟩ := hp
    exact (hsb.sorted t ht).2
  unfold iadd at hv
  rw [iaddTerms_eq_addAll _ _ hne] at hv
  set args := b.terms.map fun t => (t.ref, t.acting) with hargs
  have hmem : ∀ p ∈ args, p.1 ∈ b.refs ∧ p.1 < H.next := by
    intro p hp
    obtain ⟨t, ht, rfl⟩ := List.mem_map.1 hp
    exact ⟨List.mem_map_of_mem ht, hsb.lt t ht⟩
  have hall := hAddAll_spec (cut := cut) (hi := hi) H (fun x => x ∈ a.refs ∨ H.next ≤ x)
    (fun _ h => Or.inr h) args H a
    (by
      intro p hp
      obtain ⟨t, ht, rfl⟩ := List.mem_map.1 hp
      exact hsb.sorted t ht)
    (by simp only [hargs, List.map_map, Function.comp_def]; exact hsb.nodup)
    (fun p hp => (hmem p hp).2)
    (by
      intro p hp h
      rcases h with h | h
      · exact hab _ h (hmem p hp).1
      · have := (hmem p hp).2; omega)
    (le_refl _)
    ⟨by
      have := hown
      unfold HOp.refs at this
      rw [List.nodup_iff_pairwise_ne, List.pairwise_map] at this
      exact this.imp fun h he => absurd he h, by
        intro x hx
        obtain ⟨t, ht, rfl⟩ := List.mem_map.1 hx
        exact hsa.lt t ht⟩
    (fun _ _ _ => rfl)
    (fun t ht => Or.inl (Or.inl (List.mem_map_of_mem ht)))
  have e1 : args.map (fun p => ((H.cell p.1).mat, p.2)) = opList (b.load H) := by
    simp [hargs, opList, HOp.load, HTerm.load, Function.comp_def]
  rw [e1] at hall
  rcases hw2 : addAll cut hi (a.load H) (opList (b.load H)) with e | w
  · rw [hw2] at hv; exact absurd hv (by simp [bind, Except.bind])
  rw [hw2] at hall hv
  simp only [bind, Except.bind, pure, Except.pure, Except.ok.injEq] at hv
  obtain ⟨H2, r2, g1, g2, g3, g4, g5, g6⟩ := hall
  have hfr : ∀ x, x < H.next → x ∉ a.refs → H2.cell x = H.cell x := by
    intro x hx hxa
    apply g6 x hx
    rintro (h | h)
    · exact hxa h
    · omega
  refine ⟨H2, hAddConst cut H2 r2 b.constant, ?_, ?_, hfr, ?_⟩
  · unfold hIadd
    rw [← hargs, g1]
  · rw [← hv, ← g2]; rfl
  · intro j o hj ho
    unfold HOp.load
    congr 1
    apply load_congr
    intro t ht
    rw [hfr _ ((hw.supp o (List.mem_of_getElem? ho)).lt t ht)]
    intro hx
    exact hsh j o hj ho _ hx (List.mem_map_of_mem ht)

end

/-! ### refutations -/

/-- the heap holding `sigma^x` (float64) at address 0 and `sigma^z` at address 1. -/
def pauliHeap : Heap ℤ := ⟨fun r => if r = 0 then ⟨0, sx⟩ else ⟨0, sz⟩, 2⟩

/-- a successful result, by its evaluation. -/
def getOk {β : Type} : Except Err β → Option β
  | .ok b => some b
  | .error _ => none

theorem getOk_some {β : Type} {e : Except Err β} {b : β} (h : getOk e = some b) : e = .ok b := by
  cases e with
  | error _ => simp [getOk] at h
  | ok c => simp [getOk] at h; rw [h]

/-- C104 is false for the constructor: `LocalOperator(hi, [sx, sz], [[0], [0]])` overwrites the user's `sx`. -/
theorem C104_constructor_refuted :
    ∃ H' op, hMk intCut spins pauliHeap 0 0 [(0, [0]), (1, [0])] = .ok (H', op)
      ∧ (H'.cell 0).mat.f 0 0 ≠ (pauliHeap.cell 0).mat.f 0 0 := by
  have hw : (match hMk intCut spins pauliHeap 0 0 [(0, [0]), (1, [0])] with
      | .ok p => decide ((p.1.cell 0).mat.f 0 0 ≠ (pauliHeap.cell 0).mat.f 0 0)
      | .error _ => false) = true := by decide +kernel
  rcases h : hMk intCut spins pauliHeap 0 0 [(0, [0]), (1, [0])] with e | ⟨H', op⟩
  · rw [h] at hw; exact absurd hw Bool.false_ne_true
  · rw [h] at hw; exact ⟨H', op, rfl, of_decide_eq_true hw⟩

/-- C104 is false for in-place sums: in a world with `X = sigmax(0)` and an empty operator `A`, three
    times `A += X` leaves `4 X` instead of `3 X` in `A`, because `A` stores `X`'s own buffer. -/
theorem C104_repeated_iadd_refuted :
    ∃ (H : Heap ℤ) (x a : HOp ℤ ℤ 2), World intCut spins H [x, a]
      ∧ ∃ H1 a1 H2 a2 H3 a3, hIadd intCut spins H a x = .ok (H1, a1)
        ∧ hIadd intCut spins H1 a1 x = .ok (H2, a2) ∧ hIadd intCut spins H2 a2 x = .ok (H3, a3)
        ∧ matrixOf spins (x.load H) ![1, 1] ![-1, 1] = 1 ∧ matrixOf spins (a.load H) ![1, 1] ![-1, 1] = 0
        ∧ melAt (getConn spins (a3.load H3) (fun _ => 0) (fun _ _ => 0) ![1, 1]) ![-1, 1] = 4 := by
  have hw : (match hMk intCut spins pauliHeap 0 0 [(0, [0])] with
      | .error _ => false
      | .ok p => (match hMk intCut spins p.1 0 0 [] with
        | .error _ => false
        | .ok q => (match hIadd intCut spins q.1 q.2 p.2 with
          | .error _ => false
          | .ok r1 => (match hIadd intCut spins r1.1 r1.2 p.2 with
            | .error _ => false
            | .ok r2 => (match hIadd intCut spins r2.1 r2.2 p.2 with
              | .error _ => false
              | .ok r3 => decide (matrixOf spins (p.2.load q.1) ![1, 1] ![-1, 1] = 1)
                && decide (matrixOf spins (q.2.load q.1) ![1, 1] ![-1, 1] = 0)
                && decide (melAt (getConn spins (r3.2.load r3.1) (fun _ => 0) (fun _ _ => 0) ![1, 1])
                  ![-1, 1] = 4)))))) = true := by decide +kernel
  rcases hp : hMk intCut spins pauliHeap 0 0 [(0, [0])] with e | ⟨H0, x⟩
  · rw [hp] at hw; exact absurd hw Bool.false_ne_true
  rw [hp] at hw; simp only at hw
  rcases hq : hMk intCut spins H0 0 0 [] with e | ⟨H, a⟩
  · rw [hq] at hw; exact absurd hw Bool.false_ne_true
  rw [hq] at hw; simp only at hw
  rcases h1 : hIadd intCut spins H a x with e | ⟨H1, a1⟩
  · rw [h1] at hw; exact absurd hw Bool.false_ne_true
  rw [h1] at hw; simp only at hw
  rcases h2 : hIadd intCut spins H1 a1 x with e | ⟨H2, a2⟩
  · rw [h2] at hw; exact absurd hw Bool.false_ne_true
  rw [h2] at hw; simp only at hw
  rcases h3 : hIadd intCut spins H2 a2 x with e | ⟨H3, a3⟩
  · rw [h3] at hw; exact absurd hw Bool.false_ne_true
  rw [h3] at hw
  simp only [Bool.and_eq_true, decide_eq_true_eq] at hw
  refine ⟨H, x, a, ?_, H1, a1, H2, a2, H3, a3, h1, h2, h3, hw.1.1, hw.1.2, hw.2⟩
  exact .construct (ops := [x]) (.construct (ops := []) (.start pauliHeap) (by decide) hp) (by simp) hq

/-- C104 is false for sums used later: after `C = A + B` the in-place `C += D` changes `B`. -/
theorem C104_sum_shares_operand_refuted :
    ∃ (H : Heap ℤ) (a b d : HOp ℤ ℤ 2), World intCut spins H [a, b, d]
      ∧ ∃ H1 c H2 c', hAdd intCut spins H a b 0 = .ok (H1, c) ∧ hIadd intCut spins H1 c d = .ok (H2, c')
        ∧ matrixOf spins (b.load H2) ![1, 1] ![1, 1] ≠ matrixOf spins (b.load H) ![1, 1] ![1, 1] := by
  have hw : (match hMk intCut spins pauliHeap 0 0 [(1, [1])] with
      | .error _ => false
      | .ok p => (match hMk intCut spins p.1 0 0 [(0, [0])] with
        | .error _ => false
        | .ok q => (match hMk intCut spins q.1 0 0 [(1, [0])] with
          | .error _ => false
          | .ok s => (match hAdd intCut spins s.1 p.2 q.2 0 with
            | .error _ => false
            | .ok r1 => (match hIadd intCut spins r1.1 r1.2 s.2 with
              | .error _ => false
              | .ok r2 => decide (matrixOf spins (q.2.load r2.1) ![1, 1] ![1, 1]
                  ≠ matrixOf spins (q.2.load s.1) ![1, 1] ![1, 1])))))) = true := by decide +kernel
  rcases hp : hMk intCut spins pauliHeap 0 0 [(1, [1])] with e | ⟨Ha, a⟩
  · rw [hp] at hw; exact absurd hw Bool.false_ne_true
  rw [hp] at hw; simp only at hw
  rcases hq : hMk intCut spins Ha 0 0 [(0, [0])] with e | ⟨Hb, b⟩
  · rw [hq] at hw; exact absurd hw Bool.false_ne_true
  rw [hq] at hw; simp only at hw
  rcases hs : hMk intCut spins Hb 0 0 [(1, [0])] with e | ⟨H, d⟩
  · rw [hs] at hw; exact absurd hw Bool.false_ne_true
  rw [hs] at hw; simp only at hw
  rcases h1 : hAdd intCut spins H a b 0 with e | ⟨H1, c⟩
  · rw [h1] at hw; exact absurd hw Bool.false_ne_true
  rw [h1] at hw; simp only at hw
  rcases h2 : hIadd intCut spins H1 c d with e | ⟨H2, c'⟩
  · rw [h2] at hw; exact absurd hw Bool.false_ne_true
  rw [h2] at hw
  have n1 := hMk_supp _ _ _ _ (show ∀ p ∈ [((1 : Nat), [(1 : Fin 2)])], p.1 < pauliHeap.next by decide) _ hp
  have n2 := hMk_supp _ _ _ _ (show ∀ p ∈ [((0 : Nat), [(0 : Fin 2)])], p.1 < Ha.next from by
    intro p hpp; rw [List.mem_singleton] at hpp; subst hpp; exact lt_of_lt_of_le (by decide) n1.1) _ hq
  have w1 : World intCut spins Ha [a] := .construct (ops := []) (.start pauliHeap) (by decide) hp
  have w2 : World intCut spins Hb [a, b] := .construct (ops := [a]) w1 (by
    intro p hpp; rw [List.mem_singleton] at hpp; subst hpp; exact lt_of_lt_of_le (by decide) n1.1) hq
  have w3 : World intCut spins H [a, b, d] := .construct (ops := [a, b]) w2 (by
    intro p hpp; rw [List.mem_singleton] at hpp; subst hpp
    exact lt_of_lt_of_le (by decide) (le_trans n1.1 n2.1)) hs
  exact ⟨H, a, b, d, w3, H1, c, H2, c', h1, h2, of_decide_eq_true hw⟩

/-- C104 is false for in-place scaling of an operator built from one array on several sites
    (`LocalOperator(hi, [sx, sx], [[0], [1]])`): the matrices are scaled once per site. -/
theorem C104_inplace_scaling_refuted :
    ∃ H op, hMk intCut spins pauliHeap 0 0 [(0, [0]), (0, [1])] = .ok (H, op)
      ∧ matrixOf spins ((hImulScalar intCut H op 2).2.load (hImulScalar intCut H op 2).1)
          ![1, 1] ![-1, 1] = 4 * matrixOf spins (op.load H) ![1, 1] ![-1, 1]
      ∧ matrixOf spins (op.load H) ![1, 1] ![-1, 1] = 1 := by
  have hw : (match hMk intCut spins pauliHeap 0 0 [(0, [0]), (0, [1])] with
      | .ok p => decide (matrixOf spins ((hImulScalar intCut p.1 p.2 2).2.load
            (hImulScalar intCut p.1 p.2 2).1) ![1, 1] ![-1, 1]
            = 4 * matrixOf spins (p.2.load p.1) ![1, 1] ![-1, 1])
          && decide (matrixOf spins (p.2.load p.1) ![1, 1] ![-1, 1] = 1)
      | .error _ => false) = true := by decide +kernel
  rcases h : hMk intCut spins pauliHeap 0 0 [(0, [0]), (0, [1])] with e | ⟨H', op⟩
  · rw [h] at hw; exact absurd hw Bool.false_ne_true
  · rw [h] at hw
    simp only [Bool.and_eq_true, decide_eq_true_eq] at hw
    exact ⟨H', op, rfl, hw.1, hw.2⟩

/-- hypotheses of the positive theorems: a world with two operators on different and equal supports,
    whose sum exists. -/
example : ∃ H ops, World intCut spins H ops ∧ ∃ a ∈ ops, ∃ b ∈ ops,
    ∃ v, add intCut spins (a.load H) (b.load H) = .ok v ∧ v.terms.length = 2 := by
  have hw : (match hMk intCut spins pauliHeap 0 0 [(0, [0])] with
      | .error _ => false
      | .ok p => (match hMk intCut spins p.1 0 0 [(0, [0]), (1, [1])] with
        | .error _ => false
        | .ok q => (match add intCut spins (p.2.load q.1) (q.2.load q.1) with
          | .error _ => false
          | .ok v => decide (v.terms.length = 2)))) = true := by decide +kernel
  rcases hp : hMk intCut spins pauliHeap 0 0 [(0, [0])] with e | ⟨H0, a⟩
  · rw [hp] at hw; exact absurd hw Bool.false_ne_true
  rw [hp] at hw; simp only at hw
  rcases hq : hMk intCut spins H0 0 0 [(0, [0]), (1, [1])] with e | ⟨H, b⟩
  · rw [hq] at hw; exact absurd hw Bool.false_ne_true
  rw [hq] at hw; simp only at hw
  rcases hv : add intCut spins (a.load H) (b.load H) with e | v
  · rw [hv] at hw; exact absurd hw Bool.false_ne_true
  rw [hv] at hw
  have n1 := hMk_supp _ _ _ _ (show ∀ p ∈ [((0 : Nat), [(0 : Fin 2)])], p.1 < pauliHeap.next by decide) _ hp
  refine ⟨H, [a, b], .construct (ops := [a]) (.construct (ops := []) (.start pauliHeap) (by decide) hp) ?_ hq,
    a, by simp, b, by simp, v, hv, of_decide_eq_true hw⟩
  intro p hpp
  have : p.1 < 2 := by
    simp only [List.mem_cons, List.not_mem_nil, or_false] at hpp
    rcases hpp with rfl | rfl <;> decide
  exact lt_of_lt_of_le this n1.1

/-- hypotheses of `C14_iadd_unshared` and `C14_scalar_mul`: two operators in separate
    buffers and their in-place sum and scaling. -/
example : ∃ H ops, World intCut spins H ops ∧ ∃ a b, ops[0]? = some a ∧ b ∈ ops ∧ a.refs.Nodup ∧ a.refs ≠ []
    ∧ (∀ j o, j ≠ 0 → ops[j]? = some o → ∀ x ∈ a.refs, x ∉ o.refs) ∧ (∀ x ∈ a.refs, x ∉ b.refs)
    ∧ (∃ v, iadd intCut spins (a.load H) (b.load H) = .ok v ∧ matrixOf spins v ![1, 1] ![1, 1] = -1)
    ∧ ∃ v, mulScalar intCut spins (a.load H) 3 = .ok v ∧ matrixOf spins v ![1, 1] ![-1, 1] = 3 := by
  have hw : (match hMk intCut spins pauliHeap 0 0 [(0, [0])] with
      | .error _ => false
      | .ok p => (match hMk intCut spins p.1 0 0 [(1, [0])] with
        | .error _ => false
        | .ok q => decide (p.2.refs.Nodup) && decide (p.2.refs ≠ []) && decide (∀ x ∈ p.2.refs, x ∉ q.2.refs)
          && (match iadd intCut spins (p.2.load q.1) (q.2.load q.1) with
          | .error _ => false
          | .ok v => decide (matrixOf spins v ![1, 1] ![1, 1] = -1))
          && (match mulScalar intCut spins (p.2.load q.1) 3 with
          | .error _ => false
          | .ok v => decide (matrixOf spins v ![1, 1] ![-1, 1] = 3)))) = true := by decide +kernel
  rcases hp : hMk intCut spins pauliHeap 0 0 [(0, [0])] with e | ⟨H0, a⟩
  · rw [hp] at hw; exact absurd hw Bool.false_ne_true
  rw [hp] at hw; simp only at hw
  rcases hq : hMk intCut spins H0 0 0 [(1, [0])] with e | ⟨H, b⟩
  · rw [hq] at hw; exact absurd hw Bool.false_ne_true
  rw [hq] at hw; simp only [Bool.and_eq_true, decide_eq_true_eq] at hw
  obtain ⟨⟨⟨⟨w1, w2⟩, w3⟩, w4⟩, w5⟩ := hw
  rcases hv : iadd intCut spins (a.load H) (b.load H) with e | v
  · rw [hv] at w4; exact absurd w4 Bool.false_ne_true
  rw [hv] at w4
  rcases hu : mulScalar intCut spins (a.load H) 3 with e | u
  · rw [hu] at w5; exact absurd w5 Bool.false_ne_true
  rw [hu] at w5
  have n1 := hMk_supp _ _ _ _ (show ∀ p ∈ [((0 : Nat), [(0 : Fin 2)])], p.1 < pauliHeap.next by decide) _ hp
  refine ⟨H, [a, b], .construct (ops := [a]) (.construct (ops := []) (.start pauliHeap) (by decide) hp) ?_ hq,
    a, b, rfl, by simp, w1, w2, ?_, w3, ⟨v, hv, of_decide_eq_true w4⟩, ⟨u, hu, of_decide_eq_true w5⟩⟩
  · intro p hpp
    have : p.1 < 2 := by
      simp only [List.mem_cons, List.not_mem_nil, or_false] at hpp
      subst hpp; decide
    exact lt_of_lt_of_le this n1.1
  · intro j o hj ho
    match j, hj, ho with
    | 1, _, ho => simp only [List.getElem?_cons_succ, List.getElem?_cons_zero, Option.some.injEq] at ho
                  subst ho; exact w3
    | j + 2, _, ho => simp at ho

end Verif.LocalOp
