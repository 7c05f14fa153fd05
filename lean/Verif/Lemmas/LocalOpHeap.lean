import Verif.Model.LocalOpHeap
import Verif.Lemmas.LocalOpBuilt

/-! The heap model refines the value model as long as no buffer is shared. -/

set_option linter.unusedSectionVars false

namespace Verif.LocalOp
open Verif.Hilbert

section
variable {K : Type} [CommRing K] [DecidableEq K] [Star K] {α : Type} [LinearOrder α] [Inhabited α]
  {N : Nat} {hi : Fin N → List α} {cut : Cutoff K}

theorem store_other (H : Heap K) (r x : Nat) (m : Mat K) (h : x ≠ r) :
    (H.store r m).cell x = H.cell x := by
  simp [Heap.store, Function.update, h]

theorem store_same (H : Heap K) (r : Nat) (m : Mat K) :
    ((H.store r m).cell r).mat = m := by simp [Heap.store]

theorem alloc_old (H : Heap K) (c : Cell K) (x : Nat) (h : x < H.next) :
    (H.alloc c).cell x = H.cell x := by
  simp [Heap.alloc, Function.update, Nat.ne_of_lt h]

theorem alloc_new (H : Heap K) (c : Cell K) : (H.alloc c).cell H.next = c := by simp [Heap.alloc]

theorem load_congr (H H' : Heap K) (ts : List (HTerm K α N))
    (h : ∀ t ∈ ts, (H'.cell t.ref).mat = (H.cell t.ref).mat) :
    ts.map (HTerm.load H') = ts.map (HTerm.load H) := by
  apply List.map_congr_left
  intro t ht
  simp [HTerm.load, h t ht]

/-- the buffers of the operator are allocated, and a buffer satisfying `W` belongs to one term only. -/
structure Sep (W : Nat → Prop) (H : Heap K) (op : HOp K α N) : Prop where
  alone : op.terms.Pairwise fun t u => t.ref = u.ref → ¬ W t.ref
  lt : ∀ x ∈ op.refs, x < H.next

theorem hMerge_none (H : Heap K) (m : Mat K) (act : List (Fin N)) (ts : List (HTerm K α N)) :
    hMerge cut hi H m act ts = none ↔ mergeTerm cut hi m act (ts.map (HTerm.load H)) = none := by
  induction ts with
  | nil => simp [hMerge, mergeTerm]
  | cons t ts ih =>
    simp only [hMerge, mergeTerm, List.map_cons]
    by_cases h : t.acting = act
    · simp [HTerm.load, h]
    · rw [if_neg h, if_neg (show ¬ (HTerm.load H t).acting = act from h)]
      simp [ih]

theorem hMerge_some (W : Nat → Prop) (H : Heap K) (m : Mat K) (act : List (Fin N))
    (ts : List (HTerm K α N))
    (hn : ts.Pairwise fun t u => t.ref = u.ref → ¬ W t.ref) (hw : ∀ t ∈ ts, t.acting = act → W t.ref)
    (a : Nat) (m' : Mat K) (ts' : List (HTerm K α N))
    (h : hMerge cut hi H m act ts = some (a, m', ts')) :
    mergeTerm cut hi m act (ts.map (HTerm.load H)) = some (ts'.map (HTerm.load (H.store a m')))
    ∧ ts'.map (fun t => (t.ref, t.acting)) = ts.map (fun t => (t.ref, t.acting))
    ∧ (a, act) ∈ ts.map (fun t => (t.ref, t.acting)) := by
  induction ts generalizing ts' with
  | nil => simp [hMerge] at h
  | cons t ts ih =>
    rw [List.pairwise_cons] at hn
    simp only [hMerge] at h
    by_cases hc : t.acting = act
    · rw [if_pos hc] at h
      simp only [Option.some.injEq, Prod.mk.injEq] at h
      obtain ⟨rfl, rfl, rfl⟩ := h
      refine ⟨?_, by simp, by simp [hc]⟩
      simp only [mergeTerm, List.map_cons]
      rw [if_pos (show (HTerm.load H t).acting = act from hc)]
      have : ts.map (HTerm.load (H.store t.ref (addBlock (H.cell t.ref).mat m)))
          = ts.map (HTerm.load H) := by
        apply load_congr
        intro u hu
        rw [store_other]
        intro he
        exact hn.1 u hu he.symm (hw t List.mem_cons_self hc)
      rw [this]
      simp [HTerm.load, appendMatrix, store_same]
    · rw [if_neg hc] at h
      rcases hm : hMerge cut hi H m act ts with _ | ⟨a', m'', ts''⟩
      · rw [hm] at h; simp at h
      · rw [hm] at h
        simp only [Option.map_some, Option.some.injEq, Prod.mk.injEq] at h
        obtain ⟨rfl, rfl, rfl⟩ := h
        obtain ⟨h1, h2, h3⟩ := ih hn.2 (fun u hu => hw u (List.mem_cons_of_mem _ hu)) _ hm
        refine ⟨?_, by simp [h2], List.mem_cons_of_mem _ h3⟩
        simp only [mergeTerm, List.map_cons]
        rw [if_neg (show ¬ (HTerm.load H t).acting = act from hc), h1]
        have hne : t.ref ≠ a' := by
          intro he
          rw [List.mem_map] at h3
          obtain ⟨u, hu, hu'⟩ := h3
          simp only [Prod.mk.injEq] at hu'
          refine hn.1 u hu (he.trans hu'.1.symm) ?_
          rw [he, ← hu'.1]
          exact hw u (List.mem_cons_of_mem _ hu) hu'.2
        simp [HTerm.load, store_other _ _ _ _ hne]

theorem hRefresh_load (H : Heap K) (dt : Nat) (c : K) (ts : List (HTerm K α N)) :
    (hRefresh cut H dt c ts).load H = refresh cut c (ts.map (HTerm.load H)) := rfl

/-- what one `_add_operator` does to the heap: only the buffer of a term with the same support may
    change; the new operator's buffers are its old ones, the argument (for a new support) or new ones. -/
structure AddEffect (W : Nat → Prop) (H H' : Heap K) (op op' : HOp K α N) (r : Nat)
    (act : List (Fin N)) : Prop where
  sep : Sep W H' op'
  next : H.next ≤ H'.next
  dtype : op'.dtype = op.dtype
  frame : ∀ x, x < H.next → (∀ t ∈ op.terms, t.ref = x → t.acting ≠ act) → H'.cell x = H.cell x
  refs : ∀ t' ∈ op'.terms, (∃ t ∈ op.terms, t.ref = t'.ref ∧ t.acting = t'.acting)
    ∨ H.next ≤ t'.ref ∨ (t'.ref = r ∧ t'.acting = act)
  acts : ∀ t' ∈ op'.terms, (∃ t ∈ op.terms, t.acting = t'.acting) ∨ t'.acting = act

theorem pairwise_of_map {γ δ : Type} (R : δ → δ → Prop) (f : γ → δ) (l l' : List γ)
    (h : l.map f = l'.map f) (hp : l'.Pairwise fun x y => R (f x) (f y)) :
    l.Pairwise fun x y => R (f x) (f y) := by
  rw [← List.pairwise_map (f := f) (R := R)] at hp ⊢
  rw [h]; exact hp

theorem hAddSorted_spec (W : Nat → Prop) (H : Heap K) (op : HOp K α N) (r : Nat) (act : List (Fin N))
    (hs : Sep W H op) (hr : r < H.next) (hnew : W r → r ∉ op.refs)
    (hw : ∀ t ∈ op.terms, t.acting = act → W t.ref) :
    match addSorted cut hi (op.load H) (H.cell r).mat act with
    | .error e => hAddSorted cut hi H op r act = .error e
    | .ok v => ∃ H' op', hAddSorted cut hi H op r act = .ok (H', op') ∧ op'.load H' = v
        ∧ AddEffect W H H' op op' r act := by
  unfold addSorted hAddSorted
  rcases hm : hMerge cut hi H (H.cell r).mat act op.terms with _ | ⟨a, m', ts'⟩
  · rw [show mergeTerm cut hi (H.cell r).mat act (op.load H).terms = none from
      (hMerge_none H _ act op.terms).1 hm]
    simp only
    by_cases hd : (H.cell r).mat.n ≠ (dims hi act).prod
    · rw [if_pos hd, if_pos hd]
    · rw [if_neg hd, if_neg hd]
      refine ⟨_, _, rfl, ?_, ⟨⟨?_, ?_⟩, le_refl _, rfl, fun _ _ _ => rfl, ?_, ?_⟩⟩
      · rw [hRefresh_load]
        simp [HOp.load, HTerm.load, appendMatrix]
      · simp only [hRefresh]
        rw [List.pairwise_append]
        refine ⟨hs.alone, by simp, ?_⟩
        intro t ht u hu
        rw [List.mem_singleton] at hu
        subst hu
        intro (he : t.ref = r) hW
        exact hnew (he ▸ hW) (he ▸ List.mem_map_of_mem ht)
      · intro x hx
        simp only [HOp.refs, hRefresh, List.map_append, List.map_cons, List.map_nil,
          List.mem_append, List.mem_singleton] at hx
        rcases hx with hx | rfl
        · exact hs.lt x hx
        · exact hr
      · intro t' ht'
        simp only [hRefresh, List.mem_append, List.mem_singleton] at ht'
        rcases ht' with ht' | rfl
        · exact Or.inl ⟨t', ht', rfl, rfl⟩
        · exact Or.inr (Or.inr ⟨rfl, rfl⟩)
      · intro t' ht'
        simp only [hRefresh, List.mem_append, List.mem_singleton] at ht'
        rcases ht' with ht' | rfl
        · exact Or.inl ⟨t', ht', rfl⟩
        · exact Or.inr rfl
  · obtain ⟨h1, h2, h3⟩ := hMerge_some W H _ act op.terms hs.alone hw a m' ts' hm
    rw [show mergeTerm cut hi (H.cell r).mat act (op.load H).terms
      = some (ts'.map (HTerm.load (H.store a m'))) from h1]
    simp only
    have hrefs : ts'.map HTerm.ref = op.terms.map HTerm.ref := by
      have := congrArg (List.map Prod.fst) h2
      simpa [List.map_map, Function.comp_def] using this
    refine ⟨_, _, rfl, hRefresh_load _ _ _ _, ⟨⟨?_, ?_⟩, le_refl _, rfl, ?_, ?_, ?_⟩⟩
    · exact pairwise_of_map (fun x y => x = y → ¬ W x) HTerm.ref ts' op.terms hrefs hs.alone
    · intro x hx
      have : x ∈ ts'.map HTerm.ref := hx
      rw [hrefs] at this; exact hs.lt x this
    · intro x hx hne
      apply store_other
      rintro rfl
      rw [List.mem_map] at h3
      obtain ⟨t, ht, htt⟩ := h3
      simp only [Prod.mk.injEq] at htt
      exact hne t ht htt.1 htt.2
    · intro t' ht'
      left
      have : (t'.ref, t'.acting) ∈ ts'.map (fun t => (t.ref, t.acting)) :=
        List.mem_map.2 ⟨t', ht', rfl⟩
      rw [h2, List.mem_map] at this
      obtain ⟨t, ht, htt⟩ := this
      simp only [Prod.mk.injEq] at htt
      exact ⟨t, ht, htt.1, htt.2⟩
    · intro t' ht'
      left
      have : (t'.ref, t'.acting) ∈ ts'.map (fun t => (t.ref, t.acting)) :=
        List.mem_map.2 ⟨t', ht', rfl⟩
      rw [h2, List.mem_map] at this
      obtain ⟨t, ht, htt⟩ := this
      simp only [Prod.mk.injEq] at htt
      exact ⟨t, ht, htt.2⟩

theorem load_alloc (H : Heap K) (c : Cell K) (op : HOp K α N) (hs : ∀ x ∈ op.refs, x < H.next) :
    op.load (H.alloc c) = op.load H := by
  unfold HOp.load
  congr 1
  apply load_congr
  intro t ht
  rw [alloc_old]
  exact hs _ (List.mem_map_of_mem ht)

theorem Sep.alloc {W : Nat → Prop} {H : Heap K} {op : HOp K α N} (hs : Sep W H op) (c : Cell K) :
    Sep W (H.alloc c) op :=
  ⟨hs.alone, fun x hx => Nat.lt_succ_of_lt (hs.lt x hx)⟩

/-- `_add_operator` on a sorted support, after `np.asarray`. -/
theorem hAddArray_spec (W : Nat → Prop) (H : Heap K) (op : HOp K α N) (r : Nat) (act : List (Fin N))
    (hsort : act.Pairwise (· < ·)) (hs : Sep W H op) (hr : r < H.next) (hnew : W r → r ∉ op.refs)
    (hw : ∀ t ∈ op.terms, t.acting = act → W t.ref) :
    match addOperator cut hi (op.load H) (H.cell r).mat act with
    | .error e => hAddArray cut hi H op r act = .error e
    | .ok v => ∃ H' op', hAddArray cut hi H op r act = .ok (H', op') ∧ op'.load H' = v
        ∧ AddEffect W H H' op op' r act := by
  have hnd : act.Nodup := hsort.imp fun h => ne_of_lt h
  have hre : reorder hi (H.cell r).mat act = .ok ((H.cell r).mat, act) := by
    unfold reorder; simp [sort_eq_of_strict act hsort]
  unfold addOperator hAddArray
  rw [if_neg (not_not.2 hnd)]
  by_cases hsm : allSmall cut (H.cell r).mat = true
  · rw [if_pos hsm, if_pos hsm]
    exact ⟨H, op, rfl, rfl, hs, le_refl _, rfl, fun _ _ _ => rfl,
      fun t' ht' => Or.inl ⟨t', ht', rfl, rfl⟩, fun t' ht' => Or.inl ⟨t', ht', rfl⟩⟩
  · rw [if_neg hsm, if_neg hsm, hre]
    simp only [sort_eq_of_strict act hsort, if_true]
    exact hAddSorted_spec W H op r act hs hr hnew hw

/-- `_add_operator` on a sorted support. -/
theorem hAddOperator_spec (W : Nat → Prop) (H : Heap K) (op : HOp K α N) (r : Nat)
    (act : List (Fin N)) (hsort : act.Pairwise (· < ·)) (hs : Sep W H op) (hr : r < H.next)
    (hnew : W r → r ∉ op.refs) (hw : ∀ t ∈ op.terms, t.acting = act → W t.ref) :
    match addOperator cut hi (op.load H) (H.cell r).mat act with
    | .error e => hAddOperator cut hi H op r act = .error e
    | .ok v => ∃ H' op', hAddOperator cut hi H op r act = .ok (H', op') ∧ op'.load H' = v
        ∧ AddEffect W H H' op op' r act := by
  have hnd : act.Nodup := hsort.imp fun h => ne_of_lt h
  unfold hAddOperator
  rw [if_neg (not_not.2 hnd)]
  unfold Heap.asarray
  by_cases hd : (H.cell r).dtype = op.dtype
  · simp only [if_pos hd]
    exact hAddArray_spec W H op r act hsort hs hr hnew hw
  · simp only [if_neg hd]
    have hspec := hAddArray_spec (cut := cut) (hi := hi) W (H.alloc ⟨op.dtype, (H.cell r).mat⟩) op
      H.next act hsort (hs.alloc _) (Nat.lt_succ_self _)
      (fun _ h => Nat.lt_irrefl _ (hs.lt _ h)) hw
    rw [load_alloc _ _ _ hs.lt, alloc_new] at hspec
    simp only at hspec
    rcases hv : addOperator cut hi (op.load H) (H.cell r).mat act with e | v
    · rw [hv] at hspec; exact hspec
    · rw [hv] at hspec
      obtain ⟨H', op', h1, h2, h3⟩ := hspec
      refine ⟨H', op', h1, h2, h3.sep, le_trans (Nat.le_succ _) h3.next, h3.dtype, ?_, ?_, h3.acts⟩
      · intro x hx hne
        rw [h3.frame x (Nat.lt_succ_of_lt hx) hne, alloc_old _ _ _ hx]
      · intro t' ht'
        rcases h3.refs t' ht' with h | h | h
        · exact Or.inl h
        · exact Or.inr (Or.inl (le_trans (Nat.le_succ _) h))
        · exact Or.inr (Or.inl h.1.ge)

/-- addition of arrays that belong to somebody else (`args`): the result agrees with the value model
    and only writable buffers (`W`: owned by the operator alone, or new) are written. -/
theorem hAddAll_spec (H0 : Heap K) (W : Nat → Prop) (hWn : ∀ x, H0.next ≤ x → W x)
    (args : List (Nat × List (Fin N)))
    (H : Heap K) (op : HOp K α N)
    (hsort : ∀ p ∈ args, p.2.Pairwise (· < ·) ∧ p.2 ≠ [])
    (hacts : (args.map Prod.snd).Nodup)
    (hlt : ∀ p ∈ args, p.1 < H0.next) (hnotown : ∀ p ∈ args, ¬ W p.1)
    (hnext : H0.next ≤ H.next) (hs : Sep W H op)
    (hframe : ∀ x, x < H0.next → ¬ W x → H.cell x = H0.cell x)
    (hown : ∀ t ∈ op.terms, W t.ref ∨ t.acting ∉ args.map Prod.snd) :
    match addAll cut hi (op.load H) (args.map fun p => ((H0.cell p.1).mat, p.2)) with
    | .error e => hAddAll cut hi H op args = .error e
    | .ok v => ∃ H' op', hAddAll cut hi H op args = .ok (H', op') ∧ op'.load H' = v
        ∧ Sep W H' op' ∧ op'.dtype = op.dtype ∧ H.next ≤ H'.next
        ∧ ∀ x, x < H0.next → ¬ W x → H'.cell x = H0.cell x := by
  induction args generalizing H op with
  | nil => exact ⟨H, op, rfl, rfl, hs, rfl, le_refl _, hframe⟩
  | cons p args ih =>
    obtain ⟨r, act⟩ := p
    have hp := hsort _ List.mem_cons_self
    have hr0 := hlt _ List.mem_cons_self
    have hro := hnotown _ List.mem_cons_self
    simp only [List.map_cons, List.nodup_cons] at hacts
    have hspec := hAddOperator_spec (cut := cut) (hi := hi) W H op r act hp.1 hs
      (lt_of_lt_of_le hr0 hnext) (fun h => absurd h hro)
      (by
        intro t ht hta
        rcases hown t ht with h | h
        · exact h
        · exact absurd (by rw [hta]; simp) h)
    have hc : H.cell r = H0.cell r := hframe r hr0 hro
    rw [List.map_cons, addAll, hAddAll, if_neg hp.2, if_neg hp.2]
    simp only
    rw [hc] at hspec
    rcases hv : addOperator cut hi (op.load H) (H0.cell r).mat act with e | v
    · rw [hv] at hspec
      simp only at hspec
      rw [hspec]
    · rw [hv] at hspec
      obtain ⟨H1, op1, h1, h2, h3⟩ := hspec
      rw [h1]
      simp only
      have hstep := ih H1 op1 (fun q hq => hsort q (List.mem_cons_of_mem _ hq)) hacts.2
        (fun q hq => hlt q (List.mem_cons_of_mem _ hq))
        (fun q hq => hnotown q (List.mem_cons_of_mem _ hq))
        (le_trans hnext h3.next) h3.sep
        (by
          intro x hx hxo
          rw [h3.frame x (lt_of_lt_of_le hx hnext) ?_, hframe x hx hxo]
          intro t ht htx hta
          rcases hown t ht with h | h
          · exact hxo (htx ▸ h)
          · apply h; rw [hta]; simp)
        (by
          intro t' ht'
          rcases h3.refs t' ht' with ⟨t, ht, e1, e2⟩ | h | h
          · rw [← e1, ← e2]
            rcases hown t ht with h | h
            · exact Or.inl h
            · exact Or.inr fun hh => h (List.mem_cons_of_mem _ hh)
          · exact Or.inl (hWn _ (le_trans hnext h))
          · exact Or.inr (h.2 ▸ hacts.1))
      rw [h2] at hstep
      rcases hv2 : addAll cut hi v (args.map fun p => ((H0.cell p.1).mat, p.2)) with e | w
      · rw [hv2] at hstep ⊢; exact hstep
      · rw [hv2] at hstep ⊢
        obtain ⟨H2, op2, g1, g2, g3, g4, g5, g6⟩ := hstep
        exact ⟨H2, op2, g1, g2, g3, g4.trans h3.dtype, le_trans h3.next g5, g6⟩

/-- constructor called with arrays on pairwise different sorted supports: nothing existing is written. -/
theorem hMk_spec (H0 : Heap K) (dt : Nat) (c : K) (args : List (Nat × List (Fin N)))
    (hsort : ∀ p ∈ args, p.2.Pairwise (· < ·) ∧ p.2 ≠ []) (hacts : (args.map Prod.snd).Nodup)
    (hlt : ∀ p ∈ args, p.1 < H0.next) :
    match mk cut hi c (args.map fun p => ((H0.cell p.1).mat, p.2)) with
    | .error e => hMk cut hi H0 dt c args = .error e
    | .ok v => ∃ H' op', hMk cut hi H0 dt c args = .ok (H', op') ∧ op'.load H' = v
        ∧ Sep (H0.next ≤ ·) H' op' ∧ op'.dtype = dt ∧ H0.next ≤ H'.next
        ∧ ∀ x, x < H0.next → H'.cell x = H0.cell x := by
  unfold mk hMk
  by_cases hso : ((List.finRange N).all fun s => isSortedList (hi s)) = true
  · rw [if_pos hso, if_pos hso]
    have := hAddAll_spec (cut := cut) (hi := hi) H0 (H0.next ≤ ·) (fun _ h => h) args H0
      ⟨dt, c, [], cut.ge c, true⟩ hsort hacts hlt (fun p hp => Nat.not_le.2 (hlt p hp)) (le_refl _)
      ⟨by simp, by simp [HOp.refs]⟩ (fun _ _ _ => rfl) (by simp)
    rw [show (⟨dt, c, [], cut.ge c, true⟩ : HOp K α N).load H0 = zeroOp cut c from rfl] at this
    rcases hv : addAll cut hi (zeroOp cut c) (args.map fun p => ((H0.cell p.1).mat, p.2)) with e | v
    · rw [hv] at this ⊢; exact this
    · rw [hv] at this ⊢
      obtain ⟨H', op', h1, h2, h3, h4, h5, h6⟩ := this
      exact ⟨H', op', h1, h2, h3, h4, h5, fun x hx => h6 x hx (Nat.not_le.2 hx)⟩
  · rw [if_neg hso, if_neg hso]

/-- constructor called with new arrays (addresses from `lo` on): the operator owns all its buffers. -/
theorem hMk_fresh_spec (H0 : Heap K) (lo dt : Nat) (c : K) (args : List (Nat × List (Fin N)))
    (hsort : ∀ p ∈ args, p.2.Pairwise (· < ·) ∧ p.2 ≠ [])
    (hargs : (args.map Prod.fst).Nodup) (hacts : (args.map Prod.snd).Nodup)
    (hlt : ∀ p ∈ args, p.1 < H0.next) (hlo : ∀ p ∈ args, lo ≤ p.1) (hlo2 : lo ≤ H0.next) :
    match mk cut hi c (args.map fun p => ((H0.cell p.1).mat, p.2)) with
    | .error e => hMk cut hi H0 dt c args = .error e
    | .ok v => ∃ H' op', hMk cut hi H0 dt c args = .ok (H', op') ∧ op'.load H' = v
        ∧ op'.refs.Nodup ∧ (∀ x ∈ op'.refs, lo ≤ x ∧ x < H'.next) ∧ op'.dtype = dt
        ∧ H0.next ≤ H'.next ∧ ∀ x, x < H0.next → H'.cell x = H0.cell x := by
  have key : ∀ (args : List (Nat × List (Fin N))) (H : Heap K) (op : HOp K α N),
      (∀ p ∈ args, p.2.Pairwise (· < ·) ∧ p.2 ≠ []) → (args.map Prod.fst).Nodup →
      (args.map Prod.snd).Nodup → (∀ p ∈ args, p.1 < H0.next) → (∀ p ∈ args, lo ≤ p.1) →
      H0.next ≤ H.next → op.refs.Nodup → (∀ x ∈ op.refs, lo ≤ x ∧ x < H.next) →
      (∀ x, x < H0.next → H.cell x = H0.cell x) →
      (∀ t ∈ op.terms, t.acting ∉ args.map Prod.snd ∧ t.ref ∉ args.map Prod.fst) →
      match addAll cut hi (op.load H) (args.map fun p => ((H0.cell p.1).mat, p.2)) with
      | .error e => hAddAll cut hi H op args = .error e
      | .ok v => ∃ H' op', hAddAll cut hi H op args = .ok (H', op') ∧ op'.load H' = v
        ∧ op'.refs.Nodup ∧ (∀ x ∈ op'.refs, lo ≤ x ∧ x < H'.next) ∧ op'.dtype = op.dtype
        ∧ H.next ≤ H'.next ∧ ∀ x, x < H0.next → H'.cell x = H0.cell x := by
    intro args
    induction args with
    | nil =>
      intro H op _ _ _ _ _ _ h1 h2 h3 _
      exact ⟨H, op, rfl, rfl, h1, h2, rfl, le_refl _, h3⟩
    | cons p args ih =>
      intro H op hsort hargs hacts hlt hlo hnext hnd href hframe hdis
      obtain ⟨r, act⟩ := p
      have hp := hsort _ List.mem_cons_self
      have hr0 := hlt _ List.mem_cons_self
      simp only [List.map_cons, List.nodup_cons] at hargs hacts
      have hsep : Sep (fun _ => True) H op :=
        ⟨by
          have := hnd
          unfold HOp.refs at this
          rw [List.nodup_iff_pairwise_ne, List.pairwise_map] at this
          exact this.imp fun h he => absurd he h, fun x hx => (href x hx).2⟩
      have hrn : r ∉ op.refs := by
        intro hmem
        obtain ⟨t, ht, htr⟩ := List.mem_map.1 hmem
        apply (hdis t ht).2; rw [htr]; simp
      have hspec := hAddOperator_spec (cut := cut) (hi := hi) (fun _ => True) H op r act hp.1 hsep
        (lt_of_lt_of_le hr0 hnext) (fun _ => hrn) (fun _ _ _ => trivial)
      have hc : H.cell r = H0.cell r := hframe r hr0
      rw [List.map_cons, addAll, hAddAll, if_neg hp.2, if_neg hp.2]
      simp only
      rw [hc] at hspec
      rcases hv : addOperator cut hi (op.load H) (H0.cell r).mat act with e | v
      · rw [hv] at hspec
        simp only at hspec
        rw [hspec]
      · rw [hv] at hspec
        obtain ⟨H1, op1, h1, h2, h3⟩ := hspec
        rw [h1]
        simp only
        have hstep := ih H1 op1 (fun q hq => hsort q (List.mem_cons_of_mem _ hq)) hargs.2 hacts.2
          (fun q hq => hlt q (List.mem_cons_of_mem _ hq))
          (fun q hq => hlo q (List.mem_cons_of_mem _ hq))
          (le_trans hnext h3.next)
          (by
            unfold HOp.refs
            rw [List.nodup_iff_pairwise_ne, List.pairwise_map]
            exact h3.sep.alone.imp fun h he => h he trivial)
          (by
            intro x hx
            refine ⟨?_, h3.sep.lt x hx⟩
            obtain ⟨t', ht', rfl⟩ := List.mem_map.1 hx
            rcases h3.refs t' ht' with ⟨t, ht, e1, _⟩ | h | h
            · rw [← e1]; exact (href _ (List.mem_map_of_mem ht)).1
            · exact le_trans (le_trans hlo2 hnext) h
            · rw [h.1]; exact hlo _ List.mem_cons_self)
          (by
            intro x hx
            rw [h3.frame x (lt_of_lt_of_le hx hnext) ?_, hframe x hx]
            intro t ht _ hta
            apply (hdis t ht).1; rw [hta]; simp)
          (by
            intro t' ht'
            rcases h3.refs t' ht' with ⟨t, ht, e1, e2⟩ | h | h
            · rw [← e1, ← e2]
              exact ⟨fun hh => (hdis t ht).1 (List.mem_cons_of_mem _ hh),
                fun hh => (hdis t ht).2 (List.mem_cons_of_mem _ hh)⟩
            · refine ⟨?_, ?_⟩
              · by_cases hm : ∃ t ∈ op.terms, t.acting = t'.acting
                · obtain ⟨t, ht, e⟩ := hm
                  rw [← e]
                  exact fun hh => (hdis t ht).1 (List.mem_cons_of_mem _ hh)
                · intro hh
                  exact absurd (h3.acts t' ht') (by
                    rintro (⟨t, ht, e⟩ | e)
                    · exact hm ⟨t, ht, e⟩
                    · rw [e] at hh; exact hacts.1 hh)
              · intro hh
                obtain ⟨q, hq, e⟩ := List.mem_map.1 hh
                have := hlt q (List.mem_cons_of_mem _ hq)
                omega
            · exact ⟨h.2 ▸ hacts.1, h.1 ▸ hargs.1⟩)
        rw [h2] at hstep
        rcases hv2 : addAll cut hi v (args.map fun p => ((H0.cell p.1).mat, p.2)) with e | w
        · rw [hv2] at hstep ⊢; exact hstep
        · rw [hv2] at hstep ⊢
          obtain ⟨H2, op2, g1, g2, g3, g4, g5, g6, g7⟩ := hstep
          exact ⟨H2, op2, g1, g2, g3, g4, g5.trans h3.dtype, le_trans h3.next g6, g7⟩
  unfold mk hMk
  by_cases hso : ((List.finRange N).all fun s => isSortedList (hi s)) = true
  · rw [if_pos hso, if_pos hso]
    exact key args H0 ⟨dt, c, [], cut.ge c, true⟩ hsort hargs hacts hlt hlo (le_refl _)
      (by simp [HOp.refs]) (by simp [HOp.refs]) (fun _ _ => rfl) (by simp)
  · rw [if_neg hso, if_neg hso]

theorem allocAll_spec (H : Heap K) (cs : List (Cell K)) :
    (H.allocAll cs).2 = (List.range cs.length).map (H.next + ·)
    ∧ (H.allocAll cs).1.next = H.next + cs.length
    ∧ (∀ x, x < H.next → (H.allocAll cs).1.cell x = H.cell x)
    ∧ (∀ i (h : i < cs.length), (H.allocAll cs).1.cell (H.next + i) = cs[i]) := by
  induction cs generalizing H with
  | nil => simp [Heap.allocAll]
  | cons c cs ih =>
    obtain ⟨h1, h2, h3, h4⟩ := ih (H.alloc c)
    refine ⟨?_, ?_, ?_, ?_⟩
    · rw [Heap.allocAll, h1]
      rw [List.length_cons, List.range_succ_eq_map, List.map_cons, List.map_map]
      show H.next :: _ = _ :: _
      congr 1
      apply List.map_congr_left
      intro i _
      simp [Heap.alloc]; omega
    · rw [Heap.allocAll, h2]; simp [Heap.alloc]; omega
    · intro x hx
      rw [Heap.allocAll, h3 x (Nat.lt_succ_of_lt hx), alloc_old _ _ _ hx]
    · intro i hi
      rw [Heap.allocAll]
      rcases i with _ | i
      · rw [Nat.add_zero, h3 _ (Nat.lt_succ_self _), alloc_new]; rfl
      · have := h4 i (by simpa using hi)
        simp only [List.getElem_cons_succ]
        rw [← this]
        congr 1
        simp [Heap.alloc]; omega

/-- `copy`, `transpose`, `conjugate`: the value model's result, in new buffers of its own; nothing
    that existed changes. -/
theorem hRebuild_spec (H : Heap K) (op : HOp K α N) (f : Mat K → Mat K) (dt : Nat) (c : K)
    (hsort : ∀ t ∈ op.terms, t.acting.Pairwise (· < ·) ∧ t.acting ≠ [])
    (hacts : (op.terms.map HTerm.acting).Nodup) :
    match mk cut hi c ((op.load H).terms.map fun t => (f t.mat, t.acting)) with
    | .error e => hRebuild cut hi H op f dt c = .error e
    | .ok v => ∃ H' op', hRebuild cut hi H op f dt c = .ok (H', op') ∧ op'.load H' = v
        ∧ op'.refs.Nodup ∧ (∀ x ∈ op'.refs, H.next ≤ x ∧ x < H'.next) ∧ op'.dtype = dt
        ∧ H.next ≤ H'.next ∧ (∀ x, x < H.next → H'.cell x = H.cell x) := by
  set cs : List (Cell K) := op.terms.map fun t => ⟨(H.cell t.ref).dtype, f (H.cell t.ref).mat⟩ with hcs
  obtain ⟨h1, h2, h3, h4⟩ := allocAll_spec H cs
  have hlen : cs.length = op.terms.length := by simp [hcs]
  set args := (H.allocAll cs).2.zip (op.terms.map HTerm.acting) with hargs
  have hl2 : (H.allocAll cs).2.length = op.terms.length := by rw [h1]; simp [hlen]
  have e1 : args.map Prod.fst = (H.allocAll cs).2 := by
    rw [hargs, List.map_fst_zip]; simp [hl2]
  have e2 : args.map Prod.snd = op.terms.map HTerm.acting := by
    rw [hargs, List.map_snd_zip]; simp [hl2]
  have hmats : args.map (fun p => (((H.allocAll cs).1.cell p.1).mat, p.2))
      = (op.load H).terms.map fun t => (f t.mat, t.acting) := by
    apply List.ext_getElem
    · simp [hargs, hl2, HOp.load]
    · intro i hi1 hi2
      have hi' : i < op.terms.length := by simpa [HOp.load] using hi2
      have hic : i < cs.length := by rw [hlen]; exact hi'
      simp only [List.getElem_map, hargs, List.getElem_zip, h1, List.getElem_range, HOp.load]
      rw [h4 i hic]
      simp [hcs, HTerm.load]
  have hrange : ∀ p ∈ args, H.next ≤ p.1 ∧ p.1 < (H.allocAll cs).1.next := by
    intro p hp
    have : p.1 ∈ args.map Prod.fst := List.mem_map_of_mem hp
    rw [e1, h1, List.mem_map] at this
    obtain ⟨i, hi, hii⟩ := this
    rw [List.mem_range] at hi
    rw [← hii, h2]; omega
  have hspec := hMk_fresh_spec (cut := cut) (hi := hi) (H.allocAll cs).1 H.next dt c args
    (by
      intro p hp
      have : p.2 ∈ args.map Prod.snd := List.mem_map_of_mem hp
      rw [e2, List.mem_map] at this
      obtain ⟨t, ht, htt⟩ := this
      rw [← htt]; exact hsort t ht)
    (by rw [e1, h1]; exact List.nodup_range.map (fun a b h => by simpa using h))
    (by rw [e2]; exact hacts)
    (fun p hp => (hrange p hp).2) (fun p hp => (hrange p hp).1) (by rw [h2]; omega)
  rw [hmats] at hspec
  show match mk cut hi c ((op.load H).terms.map fun t => (f t.mat, t.acting)) with
    | .error e => hMk cut hi (H.allocAll cs).1 dt c args = .error e
    | .ok v => ∃ H' op', hMk cut hi (H.allocAll cs).1 dt c args = .ok (H', op') ∧ op'.load H' = v
        ∧ op'.refs.Nodup ∧ (∀ x ∈ op'.refs, H.next ≤ x ∧ x < H'.next) ∧ op'.dtype = dt
        ∧ H.next ≤ H'.next ∧ (∀ x, x < H.next → H'.cell x = H.cell x)
  rcases hv : mk cut hi c ((op.load H).terms.map fun t => (f t.mat, t.acting)) with e | v
  · rw [hv] at hspec ⊢; exact hspec
  · rw [hv] at hspec ⊢
    obtain ⟨H', op', g1, g2, g3, g4, g5, g6, g7⟩ := hspec
    refine ⟨H', op', g1, g2, g3, g4, g5, by omega, ?_⟩
    intro x hx
    rw [g7 x (by omega), h3 x hx]

end
end Verif.LocalOp
