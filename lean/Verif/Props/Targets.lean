import Verif.Props.StateLog
import Verif.Props.LocalOpConn

/-! What holds of two refuted properties: `StateLog` without a target (C113), the bound on the number of connected
elements of an operator without local terms (C107). -/

set_option linter.unusedSectionVars false

namespace Verif.Log

section
variable {B : Type}

theorem numbers_nil (intOf : String → Option Int) : appendStart intOf [] = .error .indexError := rfl

/-- C113, what the code does.  Full statement: mode 'append' starts a new target when there is none, mode 'fail'
    writes a new archive (refuted by `C113_append_empty_refuted` and `C113_fail_tar_refuted`).  Proved: the
    constructor accepts both; in mode 'append' without any numbered file the first call raises IndexError, in mode
    'fail' with an archive it raises ValueError, whatever is logged and however often; a new folder in mode 'fail'
    receives every k-th state. -/
theorem C113_targets_partial (intOf : String → Option Int) (hint : ∀ n : Int, intOf (toString n) = some n)
    (k : Nat) (hk : 0 < k) (s : Int) (b : B) (r : List (Int × B)) :
    (∀ m, m = "a" ∨ m = "append" → ∀ (tar : Bool) (store : Store B),
        (∀ p ∈ store.getD [], tar = false ∧ isMpack p.1 = false) →
        ∃ l, mkStateLog m k tar store = .ok l ∧ stateRun intOf l ((s, b) :: r) = .error .indexError)
    ∧ (∀ m, m = "x" ∨ m = "fail" →
        ∃ l, mkStateLog m k true (none : Store B) = .ok l ∧ stateRun intOf l ((s, b) :: r) = .error .valueError)
    ∧ (∀ m, m = "x" ∨ m = "fail" → NoBack 0 ((s, b) :: r) →
        ∃ l l', mkStateLog m k false (none : Store B) = .ok l ∧ stateRun intOf l ((s, b) :: r) = .ok l'
          ∧ l'.store = some (numbered 0 (everyKth k 0 ((s, b) :: r)))) := by
  refine ⟨?_, ?_, ?_⟩
  · intro m hm tar store hno
    have hmode : parseMode m = .ok .append := by
      unfold parseMode
      rw [if_neg (by rcases hm with rfl | rfl <;> decide), if_pos hm]
    have hfil : tar = false → (((store.getD []).map Prod.fst).filter isMpack) = [] := by
      intro _
      rw [List.filter_eq_nil_iff]
      intro n hn
      obtain ⟨p, hp, rfl⟩ := List.mem_map.1 hn
      simp [(hno p hp).2]
    have hnil : tar = true → store.getD [] = [] := by
      intro ht
      rw [List.eq_nil_iff_forall_not_mem]
      intro p hp
      have := (hno p hp).1
      rw [ht] at this
      cases this
    refine ⟨_, by simp only [mkStateLog, hmode]; rw [if_neg (by simp)], ?_⟩
    have hk0 : ¬ k = 0 := by omega
    rcases ht : tar with _ | _
    · have hf := hfil ht
      simp [stateRun, stateCall, saveVariables, initOutput, checkFolder, hk0, hf, appendStart, numbers, nextNumber]
    · have hn := hnil ht
      simp [stateRun, stateCall, saveVariables, initOutput, createTar, hk0, hn, appendStart, numbers, nextNumber]
  · intro m hm
    have hmode : parseMode m = .ok .fail := by
      unfold parseMode
      rw [if_neg (by rcases hm with rfl | rfl <;> decide), if_neg (by rcases hm with rfl | rfl <;> decide),
        if_pos hm]
    have hk0 : ¬ k = 0 := by omega
    refine ⟨_, by simp only [mkStateLog, hmode]; rw [if_neg (by simp)], ?_⟩
    simp [stateRun, stateCall, saveVariables, initOutput, createTar, hk0]
  · intro m hm hb
    exact (C29_fail intOf hint m hm k hk ((s, b) :: r) (by simp) hb).2

end

example : ∃ l, mkStateLog "append" 3 true (none : Store Nat) = .ok l
    ∧ stateRun readInt l [(0, 7), (1, 8)] = .error .indexError :=
  (C113_targets_partial readInt readInt_toString 3 (by decide) 0 7 [(1, 8)]).1 "append" (Or.inr rfl) true none
    (by intro p hp; cases hp)

end Verif.Log

namespace Verif.LocalOp

section
variable {K : Type} [CommRing K] [DecidableEq K] {α : Type} [LinearOrder α] [Inhabited α] {N : Nat} {hi : Fin N → List α}
  {cut : Cutoff K}

/-- C107, the part that holds.  Full statement: `max_conn_size` bounds the number of connected elements also for a
    constant and after multiplication with zero (refuted by `C107_max_conn_size_refuted` and
    `C107_zero_times_operator_refuted`).  Proved: for operators returned by the constructor, the number of
    connected elements is at most the larger of `max_conn_size` and one, so the bound fails for constants only. -/
theorem C107_max_conn_size_partial [Star K] (hs : SortedSpace hi) (c : K)
    (ops : List (Mat K × List (Fin N))) (op : LOp K α N) (h : mk cut hi c ops = .ok op)
    (hr : Resolved cut op) (gm : Nat → K) (gx : Nat → Fin N → α) (x : Fin N → α) (hx : Valid hi x) :
    (getConn hi op gm gx x).length ≤ max 1 (maxConnSize cut op)
    ∧ (maxConnSize cut op < (getConn hi op gm gx x).length → op.terms = []) := by
  rcases Classical.em (op.terms ≠ [] ∨ op.nonzeroDiag = false) with hne | hne
  · have := C17_max_conn_size hs c ops op h hr hne gm gx x hx
    exact ⟨le_trans this (le_max_right _ _), fun hlt => absurd hlt (by omega)⟩
  · have ht : op.terms = [] := by
      by_contra hc
      exact hne (Or.inl hc)
    refine ⟨?_, fun _ => ht⟩
    obtain ⟨h1, h2⟩ := mk_fresh c ops op h
    rw [getConn_eq hs op (OpOK_of_fresh op h1 h2 hr) gm gx x hx]
    simp only [toPairs, List.length_map, length_rowEntries]
    refine le_trans ?_ (le_max_left _ _)
    unfold connCount
    rw [ht]
    split <;> simp

end

/-- the constant 3: one connected element, bound zero. -/
example : (getConn spins (zeroOp intCut (3 : ℤ)) (fun _ => 0) (fun _ _ => (0 : ℤ)) (fun _ => -1)).length = 1
    ∧ maxConnSize intCut (zeroOp intCut (3 : ℤ) : LOp ℤ ℤ 2) = 0 := by decide +kernel

end Verif.LocalOp
