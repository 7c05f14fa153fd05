import Mathlib.Algebra.BigOperators.Fin
import Mathlib.Data.Real.Sqrt
import Verif.Lemmas.Ham
import Verif.Props.LocalOpConn
import Verif.Props.Ising

/-! C22 (BoseHubbard) and the batched forms for this class (C17, C18). -/

set_option linter.unusedSectionVars false

namespace Verif.Ham
open Verif.Hilbert Verif.LocalOp

/-! ### specification -/

section
variable {K : Type} [CommRing K] {N : Nat}

/-- matrix element `<n| a |m>` of the annihilation operator. -/
def ladder (sq : Nat → K) (n m : Nat) : K := if m = n + 1 then sq m else 0

/-- `<x| a†_i a_j |x'>` for `i ≠ j`. -/
def hop (sq : Nat → K) (i j : Fin N) (x x' : Fin N → ℕ) : K :=
  if ∀ s, s ≠ i → s ≠ j → x s = x' s then ladder sq (x' i) (x i) * ladder sq (x j) (x' j) else 0

/-- `W sum n_i (n_i - 1) - mu sum n_i + V sum n_i n_j - J sum (a†_i a_j + a†_j a_i)`; the documented
    Hamiltonian is the case `W = U / 2`. -/
def boseMatrix (sq : Nat → K) (W V J mu : K) (edges : List (Fin N × Fin N)) (x x' : Fin N → ℕ) : K :=
  (if x = x' then (∑ i, (W * ((x i : K) * ((x i : K) - 1)) - mu * (x i : K)))
      + V * (edges.map fun e => (x e.1 : K) * (x e.2 : K)).sum else 0)
    - J * (edges.map fun e => hop sq e.1 e.2 x x' + hop sq e.2 e.1 x x').sum

/-- occupation numbers of `Fock(n_max)`. -/
def InFock (nMax : Nat) (x : Fin N → ℕ) : Prop := ∀ s, x s ≤ nMax

end

section
variable {K : Type} [CommRing K] {N : Nat}

theorem valid_fock (nMax : Nat) (x : Fin N → ℕ) : Valid (fock N nMax) x ↔ InFock nMax x := by
  simp [Valid, fock, InFock, Nat.lt_succ_iff]

theorem fock_sorted (nMax : Nat) : SortedSpace (fock N nMax) := by
  intro s
  simpa [fock] using List.pairwise_lt_range

theorem fock_uniform (nMax : Nat) : Uniform (fock N nMax) := ⟨nMax + 1, fun _ => by simp [fock]⟩

theorem fock_idx (nMax : Nat) (i : Fin N) (k : Nat) (h : k ≤ nMax) : (fock N nMax i).idxOf k = k := by
  unfold fock
  have hl : k < (List.range (nMax + 1)).length := by simp; omega
  have := (List.nodup_range (n := nMax + 1)).idxOf_getElem k hl
  rwa [List.getElem_range] at this

theorem hopTo_apply (x : Fin N → ℕ) (i j : Fin N) (hij : i ≠ j) (s : Fin N) :
    hopTo x i j s = if s = j then x j + 1 else if s = i then x i - 1 else x s := by
  unfold hopTo
  by_cases h : s = j
  · subst h; rw [Function.update_self, if_pos rfl, Function.update_of_ne hij.symm]
  · rw [Function.update_of_ne h, if_neg h]
    by_cases h' : s = i
    · subst h'; rw [Function.update_self, if_pos rfl]
    · rw [Function.update_of_ne h', if_neg h']

theorem hopTo_self (x : Fin N → ℕ) (i : Fin N) (h : 0 < x i) : hopTo x i i = x := by
  funext s
  unfold hopTo
  simp only [Function.update_self]
  by_cases hs : s = i
  · subst hs; rw [Function.update_self]; omega
  · rw [Function.update_of_ne hs, Function.update_of_ne hs]

theorem sum_hopTo (x : Fin N → ℕ) (i j : Fin N) (h : 0 < x i) : ∑ s, hopTo x i j s = ∑ s, x s := by
  by_cases hij : i = j
  · subst hij; rw [hopTo_self x i h]
  · unfold hopTo
    rw [Finset.sum_update_of_mem (Finset.mem_univ j), Function.update_of_ne (Ne.symm hij)]
    have h1 : ∑ s, x s = x j + ∑ s ∈ Finset.univ \ {j}, x s := by
      rw [← Finset.sum_update_of_mem (Finset.mem_univ j), Function.update_eq_self]
    have hm : i ∈ Finset.univ \ {j} := by simp [hij]
    rw [Finset.sum_update_of_mem hm]
    have h2 : ∑ s ∈ Finset.univ \ {j}, x s = x i + ∑ s ∈ (Finset.univ \ {j}) \ {i}, x s := by
      rw [← Finset.sum_update_of_mem hm, Function.update_eq_self]
    rw [h1, h2]
    omega

theorem hopTo_eq_iff (x x' : Fin N → ℕ) (i j : Fin N) (hij : i ≠ j) (h : 0 < x i) :
    hopTo x i j = x' ↔ (∀ s, s ≠ i → s ≠ j → x s = x' s) ∧ x i = x' i + 1 ∧ x' j = x j + 1 := by
  constructor
  · rintro rfl
    refine ⟨fun s h1 h2 => by rw [hopTo_apply x i j hij, if_neg h2, if_neg h1], ?_, ?_⟩
    · rw [hopTo_apply x i j hij, if_neg hij, if_pos rfl]; omega
    · rw [hopTo_apply x i j hij, if_pos rfl]
  · rintro ⟨h1, h2, h3⟩
    funext s
    rw [hopTo_apply x i j hij]
    split_ifs with a b
    · rw [a, h3]
    · rw [b]; omega
    · exact h1 s b a

/-- one direction of an edge. -/
theorem hop_entry (R : Roots K) (op : Bose K N) (x x' : Fin N → ℕ) (hx' : InFock op.nMax x') (i j : Fin N)
    (hij : i ≠ j) :
    melAt (if x i > 0 ∧ x j < op.nMax then
        [(hopTo x i j, -op.J * R.sq (x i) * R.sq (x j + 1))] else []) x'
      = -op.J * hop R.sq i j x x' := by
  unfold hop ladder
  split_ifs with h1 h2 h3 h4 h4 h3 h4
  all_goals first
    | (have e := (hopTo_eq_iff x x' i j hij h1.1).2 ⟨h2, h3, h4⟩
       simp [melAt, e, h4]; ring)
    | (have e : hopTo x i j ≠ x' := fun hc =>
         by have := (hopTo_eq_iff x x' i j hij h1.1).1 hc; tauto
       simp [melAt, e])
    | (exfalso
       have := hx' j
       omega)
    | simp [melAt]

theorem melAt_append {α : Type} [LinearOrder α] (a b : List ((Fin N → α) × K)) (x' : Fin N → α) :
    melAt (a ++ b) x' = melAt a x' + melAt b x' := by
  simp [melAt]

theorem melAt_flatMap {α ι : Type} [LinearOrder α] (l : List ι) (f : ι → List ((Fin N → α) × K))
    (x' : Fin N → α) : melAt (l.flatMap f) x' = (l.map fun e => melAt (f e) x').sum := by
  induction l with
  | nil => simp [melAt]
  | cons e l ih => rw [List.flatMap_cons, melAt_append, ih, List.map_cons, List.sum_cons]

theorem Bose.diag_eq (R : Roots K) (op : Bose K N) (x : Fin N → ℕ) :
    op.diag R x = (∑ i, (R.half * op.U * ((x i : K) * ((x i : K) - 1)) - op.mu * (x i : K)))
      + op.V * (op.edges.map fun e => (x e.1 : K) * (x e.2 : K)).sum := by
  unfold Bose.diag
  rw [foldl_add_sum]
  have h : (fun (m : K) (i : Fin N) =>
      m - op.mu * (x i : K) + R.half * op.U * (x i : K) * ((x i : K) - 1))
      = fun m i => m + (R.half * op.U * ((x i : K) * ((x i : K) - 1)) - op.mu * (x i : K)) := by
    funext m i; ring
  rw [h, foldl_add_sum, zero_add, Fin.sum_univ_def, ← List.sum_map_mul_left]
  congr 2
  apply List.map_congr_left
  intro e _
  ring

/-! ### C22 -/

/-- C22 (provided edges join two different sites): the connected elements of a configuration add up to the
    documented matrix. -/
theorem C22_get_conn (R : Roots K) (op : Bose K N) (hne : ∀ e ∈ op.edges, e.1 ≠ e.2)
    (x x' : Fin N → ℕ) (hx' : InFock op.nMax x') :
    melAt (op.row R x) x' = boseMatrix R.sq (R.half * op.U) op.V op.J op.mu op.edges x x' := by
  have h : melAt (op.row R x) x' = (if x = x' then op.diag R x else 0)
      + melAt (op.edges.flatMap (op.edgeEntries R x)) x' := by
    simp [Bose.row, melAt]
  rw [h, melAt_flatMap, op.diag_eq]
  unfold boseMatrix
  rw [sub_eq_add_neg, ← neg_mul]
  congr 1
  rw [← List.sum_map_mul_left]
  congr 1
  apply List.map_congr_left
  intro e he
  unfold Bose.edgeEntries
  rw [melAt_append, hop_entry R op x x' hx' _ _ (hne e he), hop_entry R op x x' hx' _ _ (hne e he).symm]
  ring

/-- C22: `get_conn` returns what the batched kernel returns. -/
theorem C22_get_conn_is_kernel (R : Roots K) (op : Bose K N) (x : Fin N → ℕ) :
    op.getConn R x = op.row R x := by
  unfold Bose.getConn Bose.row
  congr 2
  rw [op.diag_eq]
  have h : (fun (m : K) (i : Fin N) =>
      m - op.mu * (x i : K) + R.half * op.U * (x i : K) * ((x i : K) - 1))
      = fun m i => m + (R.half * op.U * ((x i : K) * ((x i : K) - 1)) - op.mu * (x i : K)) := by
    funext m i; ring
  rw [h, foldl_add_sum, foldl_add_sum, zero_add, add_comm, Fin.sum_univ_def, ← List.sum_map_mul_left]
  congr 2
  apply List.map_congr_left
  intro e _
  ring

/-- C22: connected configurations have the same number of particles and stay within `0..n_max`. -/
theorem C22_conserves (R : Roots K) (op : Bose K N) (x : Fin N → ℕ) (hx : InFock op.nMax x) :
    ∀ p ∈ op.getConn R x, ∑ s, p.1 s = ∑ s, x s ∧ InFock op.nMax p.1 := by
  have key : ∀ i j : Fin N, 0 < x i → x j < op.nMax →
      ∑ s, hopTo x i j s = ∑ s, x s ∧ InFock op.nMax (hopTo x i j) := by
    intro i j h1 h2
    refine ⟨sum_hopTo x i j h1, fun s => ?_⟩
    by_cases hij : i = j
    · subst hij; rw [hopTo_self x i h1]; exact hx s
    · rw [hopTo_apply x i j hij]
      have := hx s
      have := hx i
      split_ifs <;> omega
  intro p hp
  rw [C22_get_conn_is_kernel] at hp
  simp only [Bose.row, List.mem_cons, List.mem_flatMap, Bose.edgeEntries, List.mem_append] at hp
  rcases hp with rfl | ⟨e, -, hp | hp⟩
  · exact ⟨rfl, hx⟩
  · split_ifs at hp with h
    · rw [List.mem_singleton] at hp; subst hp; exact key _ _ h.1 h.2
    · simp at hp
  · split_ifs at hp with h
    · rw [List.mem_singleton] at hp; subst hp; exact key _ _ h.1 h.2
    · simp at hp

/-- C22: at most `1 + 2|E|` elements, the announced bound. -/
theorem C22_max_conn_size (R : Roots K) (op : Bose K N) (x : Fin N → ℕ) :
    (op.getConn R x).length ≤ op.maxConn ∧ op.maxConn = 1 + 2 * op.edges.length := by
  refine ⟨?_, rfl⟩
  rw [C22_get_conn_is_kernel]
  unfold Bose.row Bose.maxConn
  rw [List.length_cons, List.length_flatMap]
  have h : (op.edges.map fun e => (op.edgeEntries R x e).length).sum ≤ op.edges.length * 2 := by
    have := List.sum_le_card_nsmul (op.edges.map fun e => (op.edgeEntries R x e).length) 2 (by
      intro n hn
      rw [List.mem_map] at hn
      obtain ⟨e, -, rfl⟩ := hn
      unfold Bose.edgeEntries
      rw [List.length_append]
      split_ifs <;> simp)
    simpa using this
  omega

/-- C22 (without self loops): the matrix is symmetric. -/
theorem C22_symmetric (R : Roots K) (op : Bose K N) (hne : ∀ e ∈ op.edges, e.1 ≠ e.2)
    (x x' : Fin N → ℕ) (hx : InFock op.nMax x) (hx' : InFock op.nMax x') :
    melAt (op.getConn R x) x' = melAt (op.getConn R x') x := by
  rw [C22_get_conn_is_kernel, C22_get_conn_is_kernel, C22_get_conn R op hne x x' hx',
    C22_get_conn R op hne x' x hx]
  have hs : ∀ i j : Fin N, hop R.sq i j x x' = hop R.sq j i x' x := by
    intro i j
    unfold hop
    have : (∀ s, s ≠ i → s ≠ j → x s = x' s) ↔ ∀ s, s ≠ j → s ≠ i → x' s = x s :=
      ⟨fun h s a b => (h s b a).symm, fun h s a b => (h s b a).symm⟩
    simp only [this, mul_comm]
  unfold boseMatrix
  congr 1
  · by_cases h : x = x'
    · subst h; rfl
    · rw [if_neg h, if_neg (Ne.symm h)]
  · congr 2
    apply List.map_congr_left
    intro e _
    rw [hs e.1 e.2, hs e.2 e.1, add_comm]

/-- C18 for BoseHubbard: splitting the batched result at `sections` gives the rows. -/
theorem C18_bose_batches (R : Roots K) (op : Bose K N) (xs : List (Fin N → ℕ)) :
    splitSections (op.flattened R xs).1 0 (op.flattened R xs).2 = xs.map (op.getConn R) := by
  have h := foldl_rows (op.row R) xs [] []
  simp only [List.nil_append, List.length_nil] at h
  have e : op.flattened R xs
      = (xs.flatMap (op.row R), runningTotals 0 (xs.map fun x => (op.row R x).length)) := h
  rw [e]
  simp only
  have := split_runningTotals [] (xs.map (op.row R)) 0 rfl ((xs.map (op.row R)).flatten) (by simp)
  rw [List.map_map] at this
  rw [show xs.flatMap (op.row R) = (xs.map (op.row R)).flatten from by rw [List.flatMap]]
  rw [show (fun x => (op.row R x).length) = List.length ∘ op.row R from rfl, this]
  exact List.map_congr_left fun x _ => (C22_get_conn_is_kernel R op x).symm

/-- C17 for BoseHubbard: with padding every row has `max_conn_size` entries, the added ones have matrix
    element zero, and the rest is the row. -/
theorem C17_bose_padding (R : Roots K) (op : Bose K N) (xs : List (Fin N → ℕ)) :
    (op.flattenedPad R xs).2 = (List.range xs.length).map (fun b => (b + 1) * op.maxConn)
    ∧ ∃ rows : List (List ((Fin N → ℕ) × K)),
        (op.flattenedPad R xs).1 = rows.flatten ∧ rows.length = xs.length
        ∧ (∀ r ∈ rows, r.length = op.maxConn)
        ∧ ∀ (b : Nat) (r : List ((Fin N → ℕ) × K)) (x : Fin N → ℕ), rows[b]? = some r → xs[b]? = some x →
          ∃ pad, r = op.getConn R x ++ pad ∧ ∀ p ∈ pad, p.2 = 0 := by
  let prow := fun x => op.row R x
      ++ List.replicate (op.maxConn - (op.row R x).length) ((fun _ => 0 : Fin N → ℕ), (0 : K))
  have hlen : ∀ x, (prow x).length = op.maxConn := by
    intro x
    have := (C22_max_conn_size R op x).1
    rw [C22_get_conn_is_kernel] at this
    simp only [prow, List.length_append, List.length_replicate]
    omega
  have h := foldl_rows prow xs [] []
  simp only [List.nil_append, List.length_nil] at h
  have e : op.flattenedPad R xs
      = (xs.flatMap prow, runningTotals 0 (xs.map fun x => (prow x).length)) := by
    rw [← h]
    unfold Bose.flattenedPad
    congr 1
    funext out x
    simp [prow, List.append_assoc]
  rw [e]
  refine ⟨?_, xs.map prow, by simp [List.flatMap], by simp, ?_, ?_⟩
  · simp only [hlen]
    have : ∀ (l : List (Fin N → ℕ)) (low : Nat), runningTotals low (l.map fun _ => op.maxConn)
        = (List.range l.length).map fun b => low + (b + 1) * op.maxConn := by
      intro l
      induction l with
      | nil => intro low; rfl
      | cons x l ih =>
        intro low
        rw [List.map_cons, runningTotals, ih, List.length_cons, List.range_succ_eq_map, List.map_cons,
          List.map_map]
        congr 1
        · ring
        · apply List.map_congr_left
          intro b _
          simp only [Function.comp, Nat.succ_eq_add_one]
          ring
    rw [this xs 0]
    simp
  · intro r hr
    rw [List.mem_map] at hr
    obtain ⟨x, -, rfl⟩ := hr
    exact hlen x
  · intro b r x hr hx
    rw [List.getElem?_map, hx] at hr
    simp only [Option.map_some, Option.some.injEq] at hr
    subst hr
    refine ⟨_, by rw [C22_get_conn_is_kernel], fun p hp => ?_⟩
    rw [List.eq_of_mem_replicate hp]

variable [DecidableEq K] [Star K] {cut : Cutoff K}

theorem embed_number (nMax : Nat) (i : Fin N) (x x' : Fin N → ℕ) (hx : InFock nMax x)
    (hx' : InFock nMax x') :
    embed (fock N nMax) (numberM (K := K) (nMax + 1)).f [i] x x' = if x = x' then (x i : K) else 0 := by
  rw [embed_site, fock_idx nMax i _ (hx i), fock_idx nMax i _ (hx' i)]
  by_cases h : ∀ s, s ≠ i → x s = x' s
  · rw [if_pos h]
    have hiff : x = x' ↔ x i = x' i := by
      refine ⟨fun e => by rw [e], fun e => ?_⟩
      funext s
      by_cases hs : s = i
      · rw [hs, e]
      · exact h s hs
    simp only [hiff, numberM]
  · rw [if_neg h, if_neg]
    rintro rfl
    exact h fun _ _ => rfl

theorem embed_destroy (R : Roots K) (nMax : Nat) (i : Fin N) (x x' : Fin N → ℕ) (hx : InFock nMax x)
    (hx' : InFock nMax x') :
    embed (fock N nMax) (destroyM R (nMax + 1)).f [i] x x'
      = if ∀ s, s ≠ i → x s = x' s then ladder R.sq (x i) (x' i) else 0 := by
  rw [embed_site, fock_idx nMax i _ (hx i), fock_idx nMax i _ (hx' i)]
  simp only [destroyM, ladder, eq_comm]

theorem embed_create (R : Roots K) (nMax : Nat) (i : Fin N) (x x' : Fin N → ℕ) (hx : InFock nMax x)
    (hx' : InFock nMax x') :
    embed (fock N nMax) (createM R (nMax + 1)).f [i] x x'
      = if ∀ s, s ≠ i → x s = x' s then ladder R.sq (x' i) (x i) else 0 := by
  rw [embed_site, fock_idx nMax i _ (hx i), fock_idx nMax i _ (hx' i)]
  simp only [createM, ladder, eq_comm]

theorem bose_site (hid : Ideal cut) (nMax : Nat) (m : Mat K) (i : Fin N) (hm : m.n = nMax + 1) :
    RepE (fock N nMax) (LocalOp.mk cut (fock N nMax) 0 [(m, [i])]) (embed (fock N nMax) m.f [i]) :=
  repE_site hid (fock_sorted nMax) m i (by rw [hm]; simp [fock])

theorem bose_number (hid : Ideal cut) (nMax : Nat) (i : Fin N) :
    RepE (fock N nMax) (LocalOp.mk cut (fock N nMax) 0 [(numberM (K := K) (nMax + 1), [i])])
      fun x x' => if x = x' then (x i : K) else 0 :=
  (bose_site hid nMax _ i rfl).congr fun x x' hx hx' =>
    embed_number nMax i x x' ((valid_fock _ _).1 hx) ((valid_fock _ _).1 hx')

theorem bose_siteTerm (hid : Ideal cut) (op : Bose K N) (i : Fin N) :
    RepE (fock N op.nMax) (op.siteTerm cut i) fun x x' =>
      if x = x' then op.U * ((x i : K) * ((x i : K) - 1)) - op.mu * (x i : K) else 0 := by
  have hs := fock_sorted (N := N) op.nMax
  have hu := fock_uniform (N := N) op.nMax
  have hn := bose_number (N := N) hid op.nMax i
  have h1 : RepE (fock N op.nMax) (scaled cut (fock N op.nMax) op.U
      (LocalOp.mk cut (fock N op.nMax) 0 [(numberM (op.nMax + 1), [i])]))
      fun x x' => if x = x' then op.U * (x i : K) else 0 :=
    (repE_scaled hid hs op.U hn).congr fun x x' _ _ => by split_ifs <;> simp
  have h2 : RepE (fock N op.nMax) (plusConst cut (fock N op.nMax)
      (LocalOp.mk cut (fock N op.nMax) 0 [(numberM (op.nMax + 1), [i])]) (-1))
      fun x x' => if x = x' then (x i : K) - 1 else 0 :=
    (repE_plusConst hid hs (-1) hn).congr fun x x' _ _ => by split_ifs <;> ring
  refine (repE_minus hid hs (repE_times hid hs hu h1 h2) (repE_scaled hid hs op.mu hn)).congr
    fun x x' hx hx' => ?_
  rw [matProd_diag (fun x : Fin N → ℕ => op.U * (x i : K)) (fun x => (x i : K) - 1) x x' hx]
  split_ifs <;> ring

theorem bose_bond1 (hid : Ideal cut) (R : Roots K) (op : Bose K N) (e : Fin N × Fin N) :
    RepE (fock N op.nMax) (op.bondTerms R cut e).1 fun x x' =>
      if x = x' then op.V * ((x e.1 : K) * (x e.2 : K)) else 0 := by
  have hs := fock_sorted (N := N) op.nMax
  have hu := fock_uniform (N := N) op.nMax
  refine (repE_scaled hid hs op.V (repE_times hid hs hu (bose_number hid op.nMax e.1)
    (bose_number hid op.nMax e.2))).congr fun x x' hx hx' => ?_
  rw [matProd_diag (fun x : Fin N → ℕ => (x e.1 : K)) (fun x => (x e.2 : K)) x x' hx]
  split_ifs <;> ring

theorem bose_bond2 (hid : Ideal cut) (R : Roots K) (op : Bose K N) (e : Fin N × Fin N) (he : e.1 ≠ e.2) :
    RepE (fock N op.nMax) (op.bondTerms R cut e).2 fun x x' =>
      op.J * (hop R.sq e.2 e.1 x x' + hop R.sq e.1 e.2 x x') := by
  have hs := fock_sorted (N := N) op.nMax
  have hu := fock_uniform (N := N) op.nMax
  have hd : ∀ i, RepE (fock N op.nMax) (LocalOp.mk cut (fock N op.nMax) 0
      [(destroyM R (op.nMax + 1), [i])])
      fun x x' => if ∀ s, s ≠ i → x s = x' s then ladder R.sq (x i) (x' i) else 0 := fun i =>
    (bose_site hid op.nMax _ i rfl).congr fun x x' hx hx' =>
      embed_destroy R op.nMax i x x' ((valid_fock _ _).1 hx) ((valid_fock _ _).1 hx')
  have hc : ∀ i, RepE (fock N op.nMax) (LocalOp.mk cut (fock N op.nMax) 0
      [(createM R (op.nMax + 1), [i])])
      fun x x' => if ∀ s, s ≠ i → x s = x' s then ladder R.sq (x' i) (x i) else 0 := fun i =>
    (bose_site hid op.nMax _ i rfl).congr fun x x' hx hx' =>
      embed_create R op.nMax i x x' ((valid_fock _ _).1 hx) ((valid_fock _ _).1 hx')
  refine (repE_scaled hid hs op.J (repE_plus hid hs (repE_times hid hs hu (hd e.1) (hc e.2))
    (repE_times hid hs hu (hc e.1) (hd e.2)))).congr fun x x' hx hx' => ?_
  rw [matProd_sites (fun a b => ladder R.sq a b) (fun a b => ladder R.sq b a) e.1 e.2 he x x' hx hx',
    matProd_sites (fun a b => ladder R.sq b a) (fun a b => ladder R.sq a b) e.1 e.2 he x x' hx hx']
  congr 2
  unfold hop
  have : (∀ s, s ≠ e.2 → s ≠ e.1 → x s = x' s) ↔ ∀ s, s ≠ e.1 → s ≠ e.2 → x s = x' s :=
    ⟨fun h s a b => h s b a, fun h s a b => h s b a⟩
  simp only [this, mul_comm]

theorem bose_loop (hid : Ideal cut) (R : Roots K) (op : Bose K N) (es : List (Fin N × Fin N))
    (hne : ∀ e ∈ es, e.1 ≠ e.2) (ha : LOp K ℕ N) (A : (Fin N → ℕ) → (Fin N → ℕ) → K)
    (h : Rep (fock N op.nMax) ha A) :
    RepE (fock N op.nMax) (op.bondLoop R cut ha es) fun x x' => A x x'
      + (if x = x' then op.V * (es.map fun e => (x e.1 : K) * (x e.2 : K)).sum else 0)
      - op.J * (es.map fun e => hop R.sq e.1 e.2 x x' + hop R.sq e.2 e.1 x x').sum := by
  have hs := fock_sorted (N := N) op.nMax
  induction es generalizing ha A with
  | nil => exact ⟨ha, rfl, h.1, fun x x' hx hx' => by simp [h.2 x x' hx hx']⟩
  | cons e es ih =>
    obtain ⟨r, r1, r2⟩ := repE_addTerms hid [e] (fun e => (op.bondTerms R cut e).1) _
      (fun e _ => bose_bond1 hid R op e) ha A h
    obtain ⟨q, q1, q2⟩ := repE_subTerms hid hs [e] (fun e => (op.bondTerms R cut e).2) _
      (fun e' he' => bose_bond2 hid R op e' (by
        rw [List.mem_singleton] at he'; subst he'; exact hne _ List.mem_cons_self)) r _ r2
    have := ih (fun e he => hne e (List.mem_cons_of_mem _ he)) q _ q2
    unfold Bose.bondLoop
    simp only [List.map_cons, List.map_nil] at r1 q1
    rw [r1]
    simp only
    rw [q1]
    simp only
    refine this.congr fun x x' _ _ => ?_
    simp only [List.map_cons, List.map_nil, List.sum_cons, List.sum_nil]
    split_ifs <;> ring

/-- what `to_local_operator()` really returns (no self loops). -/
theorem bose_toLocal_rep (hid : Ideal cut) (R : Roots K) (op : Bose K N)
    (hne : ∀ e ∈ op.edges, e.1 ≠ e.2) :
    RepE (fock N op.nMax) (op.toLocal R cut)
      (boseMatrix R.sq op.U (if op.J = 0 then 0 else op.V) op.J op.mu op.edges) := by
  have hs := fock_sorted (N := N) op.nMax
  obtain ⟨z, z1, z2⟩ := repE_zero (cut := cut) (hi := fock N op.nMax) hid hs
  unfold Bose.toLocal
  rw [z1]
  simp only
  have hA : RepE (fock N op.nMax) (if op.U ≠ 0 ∨ op.mu ≠ 0 then
        addTerms cut (fock N op.nMax) z ((List.finRange N).map (op.siteTerm cut)) else .ok z)
      fun x x' => if x = x' then
        (∑ i, (op.U * ((x i : K) * ((x i : K) - 1)) - op.mu * (x i : K))) else 0 := by
    by_cases h0 : op.U ≠ 0 ∨ op.mu ≠ 0
    · rw [if_pos h0]
      refine (repE_addTerms hid (List.finRange N) (op.siteTerm cut) _
        (fun i _ => bose_siteTerm hid op i) z _ z2).congr fun x x' _ _ => ?_
      rw [zero_add, Fin.sum_univ_def]
      split_ifs
      · rfl
      · simp
    · rw [if_neg h0]
      push Not at h0
      exact ⟨z, rfl, z2.1, fun x x' hx hx' => by rw [z2.2 x x' hx hx', h0.1, h0.2]; simp⟩
  obtain ⟨a, a1, a2⟩ := hA
  rw [a1]
  simp only
  by_cases hJ : op.J = 0
  · rw [if_neg (by simpa using hJ)]
    refine ⟨a, rfl, a2.1, fun x x' hx hx' => ?_⟩
    rw [a2.2 x x' hx hx']
    simp [boseMatrix, hJ]
  · rw [if_pos hJ, if_neg hJ]
    refine (bose_loop hid R op op.edges hne a _ a2).congr fun x x' _ _ => ?_
    unfold boseMatrix
    split_ifs <;> ring

/-- C109 (partial: the on-site interaction is zero, and the hopping is not zero or there is no
    density-density interaction): `to_local_operator()` has the connected elements of the operator. -/
theorem C109_to_local_operator_partial (hid : Ideal cut) (R : Roots K) (op : Bose K N)
    (hne : ∀ e ∈ op.edges, e.1 ≠ e.2) (hU : op.U = 0) (hV : op.J ≠ 0 ∨ op.V = 0) :
    ∃ l, op.toLocal R cut = .ok l ∧ ∀ (gm : Nat → K) (gx : Nat → Fin N → ℕ) x x',
      InFock op.nMax x → InFock op.nMax x' →
      melAt (LocalOp.getConn (fock N op.nMax) l gm gx x) x' = melAt (op.getConn R x) x' := by
  obtain ⟨l, h1, h2, h3⟩ := bose_toLocal_rep hid R op hne
  refine ⟨l, h1, fun gm gx x x' hx hx' => ?_⟩
  have hx2 := (valid_fock op.nMax x).2 hx
  have hx2' := (valid_fock op.nMax x').2 hx'
  rw [getConn_sum (fock_sorted op.nMax) l h2.ok gm gx x x' hx2 hx2', h3 x x' hx2 hx2',
    C22_get_conn_is_kernel, C22_get_conn R op hne x x' hx', hU, mul_zero]
  rcases hV with h | h
  · rw [if_neg h]
  · rw [h, ite_self]

/-- C109: in general `to_local_operator()` is the operator with twice the on-site interaction, and without
    density-density interaction if the hopping is zero. -/
theorem C109_to_local_operator_is (hid : Ideal cut) (R : Roots K) (op : Bose K N)
    (hne : ∀ e ∈ op.edges, e.1 ≠ e.2) (hh : R.half * 2 = 1) :
    ∃ l, op.toLocal R cut = .ok l ∧ ∀ (gm : Nat → K) (gx : Nat → Fin N → ℕ) x x',
      InFock op.nMax x → InFock op.nMax x' →
      melAt (LocalOp.getConn (fock N op.nMax) l gm gx x) x'
        = melAt (({ op with U := 2 * op.U, V := if op.J = 0 then 0 else op.V } : Bose K N).getConn R x)
            x' := by
  obtain ⟨l, h1, h2, h3⟩ := bose_toLocal_rep hid R op hne
  refine ⟨l, h1, fun gm gx x x' hx hx' => ?_⟩
  have hx2 := (valid_fock op.nMax x).2 hx
  have hx2' := (valid_fock op.nMax x').2 hx'
  rw [getConn_sum (fock_sorted op.nMax) l h2.ok gm gx x x' hx2 hx2', h3 x x' hx2 hx2',
    C22_get_conn_is_kernel, C22_get_conn R ({ op with U := 2 * op.U, V := if op.J = 0 then 0 else op.V } : Bose K N)
      hne x x' hx']
  simp only
  rw [← mul_assoc, hh, one_mul]

end

/-! ### witnesses -/

/-- comparisons with zero on the rationals. -/
def ratCut : Cutoff ℚ := ⟨fun z => decide (z ≠ 0), fun z => decide (z ≠ 0)⟩

theorem ratCut_ideal : Ideal ratCut := by
  constructor <;> intro z h <;> simpa [ratCut] using h

/-- one site with at most two bosons, `U = 1`; only the roots of 0 and 1 are right (unused otherwise). -/
def ratRoots : Roots ℚ := ⟨fun n => n, 1/2⟩

theorem bose_local_wrong (op : Bose ℚ 2) (hw : (match op.toLocal ratRoots ratCut with
      | .ok l => decide (matrixOf (fock 2 op.nMax) l ![2, 1] ![2, 1]
          ≠ melAt (op.getConn ratRoots ![2, 1]) ![2, 1])
      | .error _ => false) = true) (hm : 2 ≤ op.nMax) (hne : ∀ e ∈ op.edges, e.1 ≠ e.2) :
    ¬ ∃ l, op.toLocal ratRoots ratCut = .ok l ∧ ∀ (gm : Nat → ℚ) (gx : Nat → Fin 2 → ℕ) x x',
      InFock op.nMax x → InFock op.nMax x' →
      melAt (LocalOp.getConn (fock 2 op.nMax) l gm gx x) x' = melAt (op.getConn ratRoots x) x' := by
  rintro ⟨l, h1, h2⟩
  rw [h1] at hw
  obtain ⟨l', h1', h2', -⟩ := bose_toLocal_rep ratCut_ideal ratRoots op hne
  rw [h1] at h1'
  simp only [Except.ok.injEq] at h1'
  subst h1'
  have hf : InFock op.nMax ![2, 1] := by
    intro s; fin_cases s
    · exact hm
    · exact le_trans one_le_two hm
  refine of_decide_eq_true hw ?_
  rw [← h2 (fun _ => 0) (fun _ _ => 0) ![2, 1] ![2, 1] hf hf,
    getConn_sum (fock_sorted op.nMax) l h2'.ok _ _ _ _ ((valid_fock _ _).2 hf) ((valid_fock _ _).2 hf)]

/-- C109 is false: with an on-site interaction the local operator has twice the interaction energy. -/
theorem C109_to_local_operator_refuted :
    ¬ ∀ op : Bose ℚ 2, (∀ e ∈ op.edges, e.1 ≠ e.2) →
      ∃ l, op.toLocal ratRoots ratCut = .ok l ∧ ∀ (gm : Nat → ℚ) (gx : Nat → Fin 2 → ℕ) x x',
        InFock op.nMax x → InFock op.nMax x' →
        melAt (LocalOp.getConn (fock 2 op.nMax) l gm gx x) x' = melAt (op.getConn ratRoots x) x' :=
  fun h => bose_local_wrong ⟨1, 0, 1, 0, 2, [(0, 1)]⟩ (by decide +kernel) (by decide) (by decide)
    (h _ (by decide))

/-- C109 is false: without hopping the density-density interaction is dropped. -/
theorem C109_interaction_dropped_refuted :
    ¬ ∀ op : Bose ℚ 2, (∀ e ∈ op.edges, e.1 ≠ e.2) → op.U = 0 →
      ∃ l, op.toLocal ratRoots ratCut = .ok l ∧ ∀ (gm : Nat → ℚ) (gx : Nat → Fin 2 → ℕ) x x',
        InFock op.nMax x → InFock op.nMax x' →
        melAt (LocalOp.getConn (fock 2 op.nMax) l gm gx x) x' = melAt (op.getConn ratRoots x) x' :=
  fun h => bose_local_wrong ⟨0, 1, 0, 0, 2, [(0, 1)]⟩ (by decide +kernel) (by decide) (by decide)
    (h _ (by decide) rfl)

/-- C22 instances: the square roots of the reals, a triangle with at most three bosons per site. -/
noncomputable def realRoots : Roots ℝ := ⟨fun n => Real.sqrt n, 1/2⟩

noncomputable example : Bose ℝ 3 := ⟨4, 1/2, 1, 1/3, 3, [(0, 1), (1, 2), (0, 2)]⟩
example : (∀ e ∈ [((0 : Fin 3), (1 : Fin 3)), (1, 2), (0, 2)], e.1 ≠ e.2)
    ∧ InFock 3 (![3, 0, 1] : Fin 3 → ℕ) ∧ realRoots.half * 2 = 1 := by
  refine ⟨by decide, by unfold InFock; decide, by simp [realRoots]⟩
example : ((⟨4, 1/2, 1, 1/3, 3, [(0, 1), (1, 2), (0, 2)]⟩ : Bose ℚ 3).getConn ratRoots
    ![3, 0, 1]).length = 4 := by decide +kernel

end Verif.Ham
