import Verif.Model.SR
import Mathlib.Tactic.Linarith
import Mathlib.Data.Rat.Defs

/-! C88-C90: what stochastic reconfiguration does with its arguments. -/

set_option linter.unusedSectionVars false
set_option linter.unusedVariables false

namespace Verif.SR
open Verif.Hilbert (Err)

theorem get_pop (kw : Kw) (k l : Key) : get (pop kw k) l = if l = k then none else get kw l := by
  unfold get pop
  rw [List.find?_filter]
  by_cases h : l = k
  · rw [if_pos h]
    subst h
    have : (kw.find? fun a => decide (decide (a.1 ≠ l) = true ∧ decide (a.1 = l) = true)) = none := by
      rw [List.find?_eq_none]
      intro a _
      simp
    rw [this]; rfl
  · rw [if_neg h]
    congr 1
    congr 1
    funext a
    by_cases e : a.1 = l
    · have : a.1 ≠ k := fun h' => h (e.symm.trans h')
      simp [e, h]
    · simp [e]

theorem get_put (kw : Kw) (k l : Key) (v : Val) : get (put kw k v) l = if l = k then some v else get kw l := by
  unfold put
  by_cases h : l = k
  · subst h; simp [get]
  · have : get ((k, v) :: pop kw k) l = get (pop kw k) l := by
      simp [get, List.find?_cons, Ne.symm h]
    rw [this, get_pop, if_neg h, if_neg h]

theorem get_append (a b : Kw) (k : Key) : get (a ++ b) k = (get a k).or (get b k) := by
  unfold get
  rw [List.find?_append]
  cases a.find? (fun p => decide (p.1 = k)) <;> rfl

theorem get_filter (a : Kw) (f : Key → Bool) (k : Key) : get (a.filter fun p => f p.1) k = if f k then get a k else none := by
  unfold get
  rw [List.find?_filter]
  by_cases h : f k
  · rw [if_pos h]
    congr 1; congr 1
    funext p
    by_cases e : p.1 = k
    · simp [e, h]
    · simp [e]
  · rw [if_neg h]
    have : (a.find? fun p => decide (f p.1 = true ∧ decide (p.1 = k) = true)) = none := by
      rw [List.find?_eq_none]
      intro p _
      by_cases e : p.1 = k
      · simp [e, h]
      · simp [e]
    rw [this]; rfl

theorem get_merge (a b : Kw) (k : Key) : get (merge a b) k = (get b k).or (get a k) := by
  unfold merge
  rw [get_append, get_filter a (fun k => (get b k).isNone)]
  cases get b k <;> simp

/-! ## C88: arguments of `SR` -/

/-- the keywords that select the old interface (the list in the source). -/
def NoLegacy (kw : Kw) : Prop :=
  ∀ k ∈ [Key.matrix, .iterative, .method, .tol, .atol, .maxiter, .precM, .restart, .solveMethod], get kw k = none

/-- C88: new interface: tensor, solver, shift and `solver_restart` are those given, and the other keywords are those passed on to the tensor. -/
theorem C88_new_interface (args : List Val) (restart : Bool) (kw : Kw) (h : NoLegacy kw) (hn : args.length ≤ 2)
    (h0 : ∀ q, args[0]? ≠ some (.scalar q)) (h1 : ∀ t, args[1]? ≠ some (.str t))
    (hq : args[0]? = none ∨ get kw .qgt = none) (hs : args[1]? = none ∨ get kw .solver = none) :
    ∃ o, buildSR args restart kw = .ok o
      ∧ o.qgt = (args[0]?).or (get kw .qgt)
      ∧ o.solver = .plain (((args[1]?).or (get kw .solver)).getD objCG)
      ∧ o.diagShift = (get kw .diagShift).getD (.scalar (1 / 100))
      ∧ o.solverRestart = restart
      ∧ ∀ k, get o.extra k = if k = .qgt ∨ k = .solver ∨ k = .diagShift then none else get kw k := by
  have hold : oldApi args kw = false := by
    unfold oldApi
    simp only [Bool.or_eq_false_iff]
    refine ⟨⟨?_, ?_⟩, ?_⟩
    · rw [List.any_eq_false]
      intro k hk
      have : get kw k = none := h k (by
        simp [legacyKeys, legacySolverKeys] at hk ⊢
        tauto)
      simp [this]
    · cases e : args[0]? with
      | none => rfl
      | some a =>
        cases a with
        | scalar q => exact absurd e (h0 q)
        | str t => rfl
        | obj t => rfl
    · cases e : args[1]? with
      | none => rfl
      | some a =>
        cases a with
        | scalar q => rfl
        | str t => exact absurd e (h1 t)
        | obj t => rfl
  have hm : get kw .matrix = none := h _ (by simp)
  unfold buildSR
  rw [hm, hold]
  simp only [Option.isSome_none, Bool.false_eq_true, if_false]
  unfold sr
  have e1 : ¬ 2 < args.length := by omega
  have e2 : ¬ (0 < args.length ∧ (get (pop kw .solver) .qgt).isSome = true) := by
    rintro ⟨ha, hb⟩
    rcases hq with hq | hq
    · rw [List.getElem?_eq_none_iff] at hq; omega
    · rw [get_pop, hq] at hb; simp at hb
  have e3 : ¬ (1 < args.length ∧ (kwSolver kw).isSome = true) := by
    rintro ⟨ha, hb⟩
    rcases hs with hs | hs
    · rw [List.getElem?_eq_none_iff] at hs; omega
    · rw [kwSolver, hs] at hb; simp at hb
  rw [if_neg e1, if_neg e2, if_neg e3]
  refine ⟨_, rfl, ?_, ?_, ?_, rfl, ?_⟩
  · cases args[0]? <;> simp [get_pop]
  · cases e : args[1]? with
    | some a => simp
    | none => cases e' : get kw .solver <;> simp [kwSolver, e']
  · simp [get_pop]
  · intro k
    simp only [get_pop]
    by_cases a : k = .qgt <;> by_cases b : k = .diagShift <;> by_cases c : k = .solver <;> simp [a, b, c]

example := C88_new_interface [.obj 7, .obj 8] true [(.diagShift, .scalar 1), (.mode, .str 3)] (by unfold NoLegacy; decide) (by decide) (by simp) (by simp) (Or.inr rfl) (Or.inr rfl)

/-- C88: old interface without options of the solver: `SR(diag_shift, method)`. -/
theorem C88_old_interface (q : Rat) (m : Val) (restart : Bool) (hm : m = strCG ∨ m = strGMRES) :
    buildSR [.scalar q, m] restart [] = .ok ⟨none, .plain (if m = strCG then objCG else objGMRES), .scalar q, restart, []⟩
    ∧ buildSR [.scalar q] restart [] = .ok ⟨none, .plain objCG, .scalar q, restart, []⟩
    ∧ buildSR [] restart [(.method, m), (.diagShift, .scalar q)]
      = .ok ⟨none, .plain (if m = strCG then objCG else objGMRES), .scalar q, restart, []⟩ := by
  rcases hm with rfl | rfl <;> exact ⟨rfl, rfl, rfl⟩

example := C88_old_interface (1 / 100) strGMRES true (Or.inr rfl)

/-- C88: a string as second argument selects the old interface, whatever the first argument is, and the two methods give different solvers. -/
theorem C88_string_method (a : Val) (m : Val) (restart : Bool) (hm : m = strCG ∨ m = strGMRES) :
    buildSR [a, m] restart [] = .ok ⟨none, .plain (if m = strCG then objCG else objGMRES), a, restart, []⟩
    ∧ buildSR [a, strCG] restart [] ≠ buildSR [a, strGMRES] restart [] := by
  constructor
  · cases a <;> rcases hm with rfl | rfl <;> rfl
  · have e1 : buildSR [a, strCG] restart [] = .ok ⟨none, .plain objCG, a, restart, []⟩ := by cases a <;> rfl
    have e2 : buildSR [a, strGMRES] restart [] = .ok ⟨none, .plain objGMRES, a, restart, []⟩ := by cases a <;> rfl
    rw [e1, e2]
    intro h
    have h1 := congrArg Obj.solver (Except.ok.inj h)
    exact absurd (show Solver.plain objCG = Solver.plain objGMRES from h1) (by decide)

example := C88_string_method (.obj 7) strCG true (Or.inl rfl)

/-- C88: unknown methods are a ValueError, more than two arguments a TypeError. -/
theorem C88_errors (q : Rat) (m : Val) (restart : Bool) (h1 : m ≠ strCG) (h2 : m ≠ strGMRES) (rest : List Val) (a b : Val) :
    buildSR [.scalar q, m] restart [] = .error .valueError
    ∧ buildSR (.scalar q :: a :: b :: rest) restart [] = .error .typeError := by
  constructor
  · simp [buildSR, get, oldApi, legacySolver, legacyKw, put, pop, isScalar, h1, h2]
  · simp [buildSR, get, oldApi, isScalar]

example := C88_errors (1 / 100) (.obj 7) true (by decide) (by decide) [] (.obj 7) (.obj 8)

theorem construct_other (k : Kind) (kw : Kw) (p : Key × Val) (hp : p ∈ kw)
    (h : p.1 ∉ [Key.diagShift, Key.mode, Key.holomorphic, Key.rescaleShift]) : ∃ e, construct k kw = .error e := by
  have a1 : ¬ (kw.all fun p => decide (p.1 = .diagShift)) = true := by
    intro ha
    have := List.all_eq_true.1 ha p hp
    apply h
    simp at this
    simp [this]
  have a2 : ¬ (kw.all fun p => decide (p.1 ∈ [Key.diagShift, Key.mode, Key.holomorphic, Key.rescaleShift])) = true := by
    intro ha
    have := List.all_eq_true.1 ha p hp
    exact h (by simpa using this)
  cases k
  · exact ⟨_, if_neg a1⟩
  · by_cases c : (get kw .mode).isSome = true ∧ (get kw .holomorphic).isSome = true
    · exact ⟨_, if_pos c⟩
    · exact ⟨.typeError, by simp only [construct, if_neg c]; exact if_neg a2⟩
  · by_cases c : (get kw .mode).isSome = true ∧ (get kw .holomorphic).isSome = true
    · exact ⟨_, if_pos c⟩
    · exact ⟨.typeError, by simp only [construct, if_neg c]; exact if_neg a2⟩

theorem get_some_mem {kw : Kw} {k : Key} {v : Val} (h : get kw k = some v) : (k, v) ∈ kw := by
  unfold get at h
  cases e : kw.find? (fun p => decide (p.1 = k)) with
  | none => rw [e] at h; simp at h
  | some p =>
    rw [e] at h
    have h1 := List.mem_of_find?_eq_some e
    have h2 := List.find?_some e
    obtain ⟨p1, p2⟩ := p
    simp at h h2
    subst h; subst h2
    exact h1

/-- C128: refuted in general for the options of the solver: whatever is built from a call of the old interface with one of `tol`, `atol`,
    `maxiter`, `M`, `restart`, `solve_method` passes that option to the tensor as well, and no tensor accepts it. -/
theorem C128_solver_options_refuted (args : List Val) (restart : Bool) (kw : Kw) (key : Key)
    (hk : key ∈ [Key.tol, .atol, .maxiter, .precM, .restart, .solveMethod]) (hm : get kw .matrix = none) (hg : (get kw key).isSome)
    (o : Obj) (ho : buildSR args restart kw = .ok o) (k : Kind) : ∃ e, construct k (put o.extra .diagShift o.diagShift) = .error e := by
  have hold : oldApi args kw = true := by
    unfold oldApi
    have : ((legacyKeys ++ legacySolverKeys).any fun k => (get kw k).isSome) = true := by
      rw [List.any_eq_true]
      refine ⟨key, ?_, hg⟩
      simp [legacyKeys, legacySolverKeys] at hk ⊢
      tauto
    simp [this]
  have hne : ∀ l ∈ [Key.diagShift, .method, .iterative, .solver, .qgt, .mode, .holomorphic, .rescaleShift], key ≠ l := by
    simp at hk
    rcases hk with rfl | rfl | rfl | rfl | rfl | rfl <;> decide
  unfold buildSR at ho
  rw [hm, hold] at ho
  simp only [Option.isSome_none, Bool.false_eq_true, if_false, if_true] at ho
  by_cases hl : 2 < args.length
  · rw [if_pos hl] at ho; simp at ho
  rw [if_neg hl] at ho
  have g2 : get (legacyKw args kw) key = get kw key := by
    have g1 : get (match args[0]? with | some a => put kw .diagShift a | none => kw) key = get kw key := by
      cases args[0]? with
      | none => rfl
      | some a => simp only; rw [get_put, if_neg (hne _ (by simp))]
    unfold legacyKw
    cases args[1]? with
    | none => exact g1
    | some a => simp only; rw [get_put, if_neg (hne _ (by simp))]; exact g1
  cases hs : legacySolver (pop (legacyKw args kw) .iterative) with
  | error e => rw [hs] at ho; simp at ho
  | ok s =>
    rw [hs] at ho
    simp only [sr, List.length_nil, Nat.not_lt_zero, false_and, if_false] at ho
    injection ho with ho
    have hx : get (put o.extra .diagShift o.diagShift) key = get kw key := by
      rw [get_put, if_neg (hne _ (by simp)), ← ho]
      simp only [get_pop]
      rw [if_neg (hne _ (by simp)), if_neg (hne _ (by simp)), if_neg (hne _ (by simp)), if_neg (hne _ (by simp)), if_neg (hne _ (by simp)), g2]
    obtain ⟨v, hv⟩ := Option.isSome_iff_exists.1 hg
    have hmem := get_some_mem (hx.trans hv)
    refine construct_other k _ _ hmem ?_
    intro hin
    have hin' : key ∈ [Key.diagShift, Key.mode, Key.holomorphic, Key.rescaleShift] := hin
    simp only [List.mem_cons, List.not_mem_nil, or_false] at hin'
    rcases hin' with h | h | h | h <;> exact hne _ (by simp) h

example := C128_solver_options_refuted [.scalar (1 / 100)] false [(.maxiter, .scalar 3)] .maxiter (by decide) rfl rfl
  ⟨none, .withKw objCG [(.maxiter, .scalar 3)], .scalar (1 / 100), false, [(.maxiter, .scalar 3)]⟩ (by decide +kernel) .onTheFly

/-- C128: refuted: with an option of the solver, a tensor given as first argument is taken for the shift and a given solver is replaced by
    the conjugate gradient method (this is what `SRLazyGMRES(maxiter=...)` does). -/
theorem C128_arguments_lost_refuted :
    buildSR [.obj 7] false [(.solver, .obj 8), (.diagShift, .scalar (1 / 10)), (.maxiter, .scalar 3)]
      = .ok ⟨none, .withKw objCG [(.maxiter, .scalar 3)], .obj 7, false, [(.maxiter, .scalar 3)]⟩ := by
  decide +kernel

/-- C128: refuted: with the keyword `matrix`, `solver_restart` is lost, and the keyword reaches the tensor, which refuses it. -/
theorem C128_matrix_refuted (k : Kind) :
    ∃ o, buildSR [] true [(.matrix, .obj 7)] = .ok o ∧ o.solverRestart = false
      ∧ ∃ e, construct k (put o.extra .diagShift o.diagShift) = .error e := by
  refine ⟨_, rfl, rfl, ?_⟩
  exact construct_other k _ (.matrix, .obj 7) (by simp [put, pop]) (by decide)

/-- C128: refuted: of the documented options, `jacobian` is refused by every tensor, `rescale_shift` by the one on the fly; `centered`, which
    is announced as deprecated, is refused by all. -/
theorem C128_options_refuted (v : Val) (kw : Kw) :
    (∀ k, ∃ e, construct k ((.jacobian, v) :: kw) = .error e) ∧ (∀ k, ∃ e, construct k ((.centered, v) :: kw) = .error e)
    ∧ construct .onTheFly [(.rescaleShift, v)] = .error .typeError := by
  refine ⟨fun k => ?_, fun k => ?_, rfl⟩
  · exact construct_other k _ (.jacobian, v) (by simp) (by simp)
  · exact construct_other k _ (.centered, v) (by simp) (by simp)

/-- C88: options accepted: the shift by all, `mode`, `holomorphic` (not both) and `rescale_shift` by the Jacobian ones. -/
theorem C88_options (k : Kind) (kw : Kw) (d : Val) (hd : get kw .diagShift = some d)
    (h : ∀ p ∈ kw, p.1 = .diagShift ∨ (k ≠ .onTheFly ∧ (p.1 = .mode ∨ p.1 = .holomorphic ∨ p.1 = .rescaleShift)))
    (hb : get kw .mode = none ∨ get kw .holomorphic = none) : construct k kw = .ok d := by
  have a2 : (kw.all fun p => decide (p.1 ∈ [Key.diagShift, Key.mode, Key.holomorphic, Key.rescaleShift])) = true := by
    rw [List.all_eq_true]
    intro p hp
    have := h p hp
    simp
    tauto
  have c : ¬ ((get kw .mode).isSome = true ∧ (get kw .holomorphic).isSome = true) := by
    rcases hb with hb | hb <;> simp [hb]
  cases k with
  | onTheFly =>
    have a1 : (kw.all fun p => decide (p.1 = .diagShift)) = true := by
      rw [List.all_eq_true]
      intro p hp
      have := h p hp
      simp at this
      simp [this]
    simp [construct, hd] at a1 ⊢
    exact a1
  | jacobianDense => simp only [construct, if_neg c]; rw [if_pos a2, hd]; rfl
  | jacobianPyTree => simp only [construct, if_neg c]; rw [if_pos a2, hd]; rfl

example := C88_options .jacobianDense [(.diagShift, .scalar 1), (.rescaleShift, .scalar 1)] (.scalar 1) rfl (by decide) (Or.inl rfl)

/-- C88: `mode` and `holomorphic` together are a ValueError of the Jacobian tensors, and unknown there for the one on the fly. -/
theorem C88_mode_and_holomorphic (k : Kind) (kw : Kw) (a b : Val) (h1 : get kw .mode = some a) (h2 : get kw .holomorphic = some b) :
    construct k kw = .error (if k = .onTheFly then .typeError else .valueError) := by
  cases k with
  | onTheFly =>
    have : ¬ (kw.all fun p => decide (p.1 = .diagShift)) = true := by
      intro h
      have := List.all_eq_true.1 h _ (get_some_mem h1)
      simp at this
    simp only [construct, if_true]
    exact if_neg this
  | jacobianDense => simp [construct, h1, h2]
  | jacobianPyTree => simp [construct, h1, h2]

example := C88_mode_and_holomorphic .jacobianDense [(.mode, .str 3), (.holomorphic, .obj 1)] (.str 3) (.obj 1) rfl rfl

/-- C128: refuted: a legacy machine given by keyword is an IndexError instead of reaching the legacy class. -/
theorem C128_machine_keyword_refuted (isMachine : Val → Bool) (v : Val) (kw : Kw) :
    wrapsLegacy isMachine [] ((.machine, v) :: kw) = .error .indexError := by
  simp [wrapsLegacy, get]

/-- C88: calls without that keyword are dispatched by the type of the first argument. -/
theorem C88_legacy (isMachine : Val → Bool) (args : List Val) (kw : Kw) (h : get kw .machine = none) :
    wrapsLegacy isMachine args kw = .ok (match args with | a :: _ => isMachine a | [] => false) := by
  cases args <;> simp [wrapsLegacy, h]

example := C88_legacy (fun v => v == .obj 3) [.obj 3] [(.diagShift, .scalar 1)] rfl

/-! ## C89: solving -/

/-- one call after the other. -/
def runCalls {V : Type} (P : Precond V) : List (Option V → Except Err V) → Precond V × List (Except Err V)
  | [] => (P, [])
  | s :: ss => ((runCalls (P.call s).1 ss).1, (P.call s).2 :: (runCalls (P.call s).1 ss).2)

/-- C89: with `solver_restart=True` each solve starts from the last solution found (`last`), if any. -/
theorem C89_restart_true {V : Type} (P : Precond V) (h : P.solverRestart = true) (solve : Option V → Except Err V) :
    (P.call solve).2 = solve P.x0 ∧ (∀ x, solve P.x0 = .ok x → (P.call solve).1.x0 = some x)
      ∧ (∀ e, solve P.x0 = .error e → (P.call solve).1.x0 = P.x0) := by
  unfold Precond.call
  rw [if_pos h]
  cases e : solve P.x0 <;> simp

example := C89_restart_true (V := Nat) ⟨true, some 4⟩ rfl (fun x => .ok (x.getD 1))

/-- C89: with `solver_restart=False` no solve depends on earlier ones. -/
theorem C89_restart_false {V : Type} (P : Precond V) (h : P.solverRestart = false) (ss : List (Option V → Except Err V)) :
    (runCalls P ss).2 = ss.map fun s => s none := by
  induction ss generalizing P with
  | nil => rfl
  | cons s ss ih =>
    have h1 : (P.call s).1.solverRestart = false := by
      unfold Precond.call
      cases e : s (if P.solverRestart = true then P.x0 else none) <;> simp [h]
    have h2 : (P.call s).2 = s none := by
      unfold Precond.call
      rw [h]
      simp only [Bool.false_eq_true, if_false]
      cases s none <;> rfl
    rw [runCalls, ih _ h1, h2]
    rfl

example := C89_restart_false (V := Nat) ⟨false, some 4⟩ rfl [fun x => .ok (x.getD 1), fun _ => .error .valueError]

/-- C89: refuted as documented ("If False uses the last solution of the linear system as a starting point"): it is the other way round. -/
theorem C89_restart_refuted :
    ¬ ∀ (V : Type) (P : Precond V) (s t : Option V → Except Err V) (x : V), P.solverRestart = false → (P.call s).2 = .ok x →
      ((P.call s).1.call t).2 = t (some x) := by
  intro h
  have := h Nat ⟨false, none⟩ (fun _ => .ok 1) (fun g => .ok (g.getD 0)) 1 rfl rfl
  simp [Precond.call] at this

/-- C89: the preconditioner's flag never changes. -/
theorem C89_flag {V : Type} (P : Precond V) (s : Option V → Except Err V) : (P.call s).1.solverRestart = P.solverRestart := by
  unfold Precond.call
  cases s (if P.solverRestart = true then P.x0 else none) <;> rfl

/-- C89: refuted: "must accept arbitrary additional arguments": the Jacobian tensors refuse every additional argument of `solve`, the one on
    the fly drops them before the solver. -/
theorem C89_solve_arguments_refuted (p : Key × Val) (kw : Kw) :
    solveKw (some .jacobianDense) (p :: kw) = .error .typeError ∧ solveKw (some .jacobianPyTree) (p :: kw) = .error .typeError
    ∧ solveKw (some .onTheFly) (p :: kw) = .ok [] := by
  simp [solveKw]

/-- C89: without additional arguments every tensor calls the solver without. -/
theorem C89_solve_arguments_partial (k : Option Kind) : solveKw k [] = .ok [] := by
  cases k with
  | none => rfl
  | some k => cases k <;> rfl

open Finset in
/-- C89: refuted: `LU(A, b, trans=1)` solves A x = b, not the transposed system. -/
theorem C89_lu_refuted :
    ¬ ∀ (n : Nat) (lin : (Nat → Nat → Rat) → (Nat → Rat) → Nat → Rat) (A : Nat → Nat → Rat) (b : Nat → Rat),
      (∀ i < n, ∑ j ∈ range n, A i j * lin A b j = b i) → ∀ i < n, ∑ j ∈ range n, A j i * lu lin A b 1 j = b i := by
  intro h
  have := h 2 (fun _ b j => if j = 0 then b 0 - b 1 else b 1) (fun i j => if i = 1 ∧ j = 0 then 0 else 1) (fun i => if i = 0 then 0 else 1)
    (by
      intro i hi
      have : i = 0 ∨ i = 1 := by omega
      rcases this with rfl | rfl <;> simp [sum_range_succ]) 1 (by norm_num)
  simp [lu, sum_range_succ] at this

open Finset in
/-- C89: for `trans=0` it solves the system. -/
theorem C89_lu_partial (n : Nat) (lin : (Nat → Nat → Rat) → (Nat → Rat) → Nat → Rat) (A : Nat → Nat → Rat) (b : Nat → Rat)
    (h : ∀ i < n, ∑ j ∈ range n, A i j * lin A b j = b i) (i : Nat) (hi : i < n) : ∑ j ∈ range n, A i j * lu lin A b 0 j = b i := h i hi

example := C89_lu_partial 2 (fun _ b => b) (fun i j => if i = j then 1 else 0) (fun i => i + 1) (by
  intro i hi
  obtain rfl | rfl : i = 0 ∨ i = 1 := by omega
  all_goals simp [Finset.sum_range_succ]) 1 (by decide)

/-! ## C90: the automatic choice -/

/-- C90: the first call: the constructor gets the keywords of the object and of the call. -/
theorem C90_first (dense : Bool) (kw0 kw : Kw) (vs : VState) (last : Option Nat) (m : Option (Kind × Kw)) (hl : last ≠ some vs.ident)
    (hd : ∀ k, get kw0 k = none ∨ get kw k = none) (hs : get kw .solver = none) :
    ∃ k' kw' A', Auto.call ⟨dense, kw0, last, m⟩ vs kw = (A', .ok (k', kw')) ∧ (∀ k, get kw' k = (get kw k).or (get kw0 k))
      ∧ k' = defaultKind dense vs := by
  have hc : ¬ ((kw0.any fun p => (get kw p.1).isSome) = true ∨ (get kw .solver).isSome = true) := by
    rintro (h | h)
    · obtain ⟨p, hp, h1⟩ := List.any_eq_true.1 h
      rcases hd p.1 with h2 | h2
      · have : (kw0.find? fun q => decide (q.1 = p.1)).isSome := by
          rw [List.find?_isSome]
          exact ⟨p, hp, by simp⟩
        unfold get at h2
        cases e : kw0.find? (fun q => decide (q.1 = p.1)) with
        | none => rw [e] at this; simp at this
        | some q => rw [e] at h2; simp at h2
      · rw [h2] at h1; simp at h1
    · rw [hs] at h; simp at h
  refine ⟨defaultKind dense vs, merge (kw0 ++ kw) kw, ⟨dense, kw0, some vs.ident, some (defaultKind dense vs, kw0 ++ kw)⟩, ?_, ?_, rfl⟩
  · unfold Auto.call
    rw [if_neg hl]
    simp only
    rw [if_neg hc]
    rfl
  · intro k
    rw [get_merge, get_append]
    cases get kw k <;> cases get kw0 k <;> rfl

example := C90_first false [(.mode, .str 3)] [(.diagShift, .scalar 1)] ⟨0, 7, 801, true⟩ none none (by decide) (by intro k; cases k <;> simp [get]) rfl

/-- C90: the choice: dense solvers get the dense Jacobian; more than 6 leaves and 800 parameters a Jacobian, dense if the types are
    homogeneous; otherwise on the fly. -/
theorem C90_choice (vs : VState) :
    defaultKind true vs = .jacobianDense
    ∧ (6 < vs.nLeaves → 800 < vs.nParams → defaultKind false vs = if vs.homogeneous then .jacobianDense else .jacobianPyTree)
    ∧ (vs.nLeaves ≤ 6 ∨ vs.nParams ≤ 800 → defaultKind false vs = .onTheFly) := by
  refine ⟨rfl, fun h1 h2 => ?_, fun h => ?_⟩
  · simp [defaultKind, h1, h2]
  · have : ¬ (6 < vs.nLeaves ∧ 800 < vs.nParams) := by omega
    simp [defaultKind, this]

/-- C128: refuted: dense solvers get the dense Jacobian also for parameters of mixed types, which it cannot handle (C123_mixed_refuted). -/
theorem C128_auto_choice_refuted : ¬ ∀ (dense : Bool) (vs : VState), defaultKind dense vs = .jacobianDense → vs.homogeneous = true := by
  intro h
  simpa using h true ⟨0, 2, 2, false⟩ rfl

/-- C128: refuted: "kwargs are passed on to the QGT constructor": those of the first call with a state stay for the later ones. -/
theorem C128_auto_stale_refuted :
    ¬ ∀ (A : Auto) (vs : VState) (kw1 kw2 : Kw) (k : Kind) (kw : Kw), ((A.call vs kw1).1.call vs kw2).2 = .ok (k, kw) →
      ∀ key, get kw key = (get kw2 key).or (get A.kwargs key) := by
  intro h
  have h1 := h ⟨true, [], none, none⟩ ⟨0, 1, 1, true⟩ [(.diagShift, .scalar 1)] [] .jacobianDense [(.diagShift, .scalar 1)]
    (by decide +kernel) .diagShift
  exact absurd h1 (by decide +kernel)

/-- C90: later calls with the same keywords are as the first. -/
theorem C90_repeat (A A' : Auto) (vs : VState) (kw : Kw) (r : Kind × Kw) (h : A.call vs kw = (A', .ok r)) :
    ∃ r', (A'.call vs kw).2 = .ok r' ∧ r'.1 = r.1 ∧ ∀ key, get r'.2 key = get r.2 key := by
  unfold Auto.call at h
  by_cases hl : A.lastState = some vs.ident
  · rw [if_pos hl] at h
    simp only [Prod.mk.injEq] at h
    obtain ⟨rfl, h2⟩ := h
    exact ⟨r, by unfold Auto.call; rw [if_pos hl]; exact h2, rfl, fun _ => rfl⟩
  · rw [if_neg hl] at h
    simp only at h
    split at h
    · simp at h
    · simp only [Prod.mk.injEq] at h
      obtain ⟨rfl, h2⟩ := h
      refine ⟨r, ?_, rfl, fun _ => rfl⟩
      unfold Auto.call
      rw [if_pos rfl]
      exact h2

example := C90_repeat ⟨false, [(.mode, .str 3)], none, none⟩ _ ⟨0, 7, 801, true⟩ [(.diagShift, .scalar 1)] _ rfl

/-- C128: refuted: after a call that was refused (a keyword given twice), a valid call with the same state fails, or uses the constructor
    chosen for another state. -/
theorem C128_auto_after_error_refuted :
    ∃ (A : Auto) (vs : VState) (bad good : Kw), A.lastState = none ∧ (∃ r, (A.call vs good).2 = .ok r)
      ∧ (A.call vs bad).2 = .error .typeError ∧ ((A.call vs bad).1.call vs good).2 = .error .typeError := by
  refine ⟨⟨false, [(.mode, .str 5)], none, none⟩, ⟨0, 1, 1, true⟩, [(.mode, .str 5)], [], rfl, ?_, ?_, ?_⟩
  · exact ⟨(.onTheFly, [(.mode, .str 5)]), by decide +kernel⟩
  · decide +kernel
  · decide +kernel

/-! ## Examples -/

/-- hypotheses of `C88_new_interface`: a tensor and keywords. -/
example : NoLegacy [(.diagShift, .scalar 1), (.mode, .str 3)]
    ∧ buildSR [.obj 7, .obj 8] true [(.diagShift, .scalar 1), (.mode, .str 3)] = .ok ⟨some (.obj 7), .plain (.obj 8), .scalar 1, true, [(.mode, .str 3)]⟩ := by
  constructor
  · unfold NoLegacy; decide
  · decide +kernel

/-- hypotheses of `C128_solver_options_refuted`: `SR(0.01, maxiter=3)` is built. -/
example : buildSR [.scalar (1 / 100)] false [(.maxiter, .scalar 3)]
    = .ok ⟨none, .withKw objCG [(.maxiter, .scalar 3)], .scalar (1 / 100), false, [(.maxiter, .scalar 3)]⟩ := by
  decide +kernel

/-- hypotheses of `C88_options`. -/
example : construct .jacobianDense [(.diagShift, .scalar 1), (.rescaleShift, .scalar 1)] = .ok (.scalar 1) := by
  decide +kernel

/-- hypotheses of `C90_first`: distinct keywords. -/
example : (Auto.call ⟨false, [(.mode, .str 3)], none, none⟩ ⟨0, 7, 801, true⟩ [(.diagShift, .scalar 1)]).2
    = .ok (.jacobianDense, [(.mode, .str 3), (.diagShift, .scalar 1)]) := by
  decide +kernel

end Verif.SR
