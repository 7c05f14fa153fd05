import Verif.Props.Liouvillian

/-! C71, method `iterative`. -/

namespace Verif.Liou
open Verif.Hilbert Verif.LocalOp Verif.Ham Verif.Lindblad Verif.Sparse Matrix

variable {K : Type} [CommRing K] [DecidableEq K] [StarRing K] {α : Type} [LinearOrder α] [Inhabited α]
  {N : Nat} {hi : Fin N → List α} {cut : Cutoff K}

/-- `steady_state(method="iterative")` (netket/exact.py:189-212) solves `L x = (0, …, 0, 1)` for the operator of
size `M² + 1`. A vector that solves it is, without its last entry, a stationary state of the Lindblad equation
with trace one. Missing: that the solver finds a solution (external). -/
theorem C125_iterative_partial (hid : Ideal cut) (hs : SortedSpace hi) (hu : Uniform hi) (I half : K)
    (hI : star I = -I) (hII : I * I = -1) (hh : star half = half) (h : LOp K α N) (hb : Built cut hi h)
    (ls : List (LOp K α N)) (hl : ∀ l ∈ ls, Built cut hi l) (d : Disc α) (hidx : Indexes d (ValidConf hi))
    (gm : LOp K α N → Nat → K) (gx : LOp K α N → Nat → Fin N → α) :
    ∃ op iH js, mkLiou cut hi (half * I) h ls = .ok op
      ∧ linearParts cut hi I (denseOf d hi gm gx) op = .ok (iH, js) ∧
      ∀ (ρ : (Fin N → α) → (Fin N → α) → K) (v : Nat → K), Vectorised d hi ρ v →
        matvecTrace d.nStates iH js v = List.replicate (d.nStates * d.nStates) 0 ++ [1] →
        generator I half (mat hi h) (ls.map (mat hi)) (dens hi ρ) = 0 ∧ (dens hi ρ).trace = 1 := by
  obtain ⟨op, iH, js, h1, h2, h3⟩ := C79_to_linear_operator hid hs hu I half hI hII hh h hb ls hl d hidx gm gx
  refine ⟨op, iH, js, h1, h2, fun ρ v hv e => ?_⟩
  obtain ⟨g1, _, g3⟩ := h3 ρ v hv
  constructor
  · funext x y
    obtain ⟨i, hi1, hi2, _⟩ := hidx.toNum (List.ofFn x.1) ⟨x.1, (mem_basis _).1 x.2, rfl⟩
    obtain ⟨j, hj1, hj2, _⟩ := hidx.toNum (List.ofFn y.1) ⟨y.1, (mem_basis _).1 y.2, rfl⟩
    have := (g1 x y i j hi2 hj2).2
    have hlt : i * d.nStates + j < d.nStates * d.nStates := by
      have : (i + 1) * d.nStates ≤ d.nStates * d.nStates := Nat.mul_le_mul_right _ hi1
      rw [Nat.succ_mul] at this
      omega
    rw [e, List.getElem?_append_left (by simpa using hlt), List.getElem?_replicate, if_pos hlt] at this
    exact (Option.some.inj this).symm
  · rw [e, List.getElem?_append_right (by simp)] at g3
    simp at g3
    exact g3.symm

/-- decay and pump of a qubit (`σ⁻` and `σ⁺`): the maximally mixed state solves the system. The other hypotheses
are those of `C79_to_linear_operator` (see the example there). -/
example : matvecTrace 2 (fun i j => if i = j then -gqHalf else 0)
    [(fun i j => if i = 1 ∧ j = 0 then (1 : GQ) else 0, fun i j => if i = 0 ∧ j = 1 then 1 else 0),
     (fun i j => if i = 0 ∧ j = 1 then 1 else 0, fun i j => if i = 1 ∧ j = 0 then 1 else 0)]
    (fun k => if k % 3 = 0 then gqHalf else 0) = List.replicate (2 * 2) 0 ++ [1] := by
  decide +kernel

end Verif.Liou
