import Verif.Model.SymmLinear
import Verif.Spec.PermGroup
import Verif.Lemmas.FlatSum
import Mathlib.Data.Rat.Defs
import Mathlib.Algebra.Order.Ring.Rat
import Mathlib.Tactic.Ring

/-! C61: DenseSymmMatrix is equivariant, RBMSymm is invariant. -/

set_option linter.unusedSectionVars false
set_option linter.unusedVariables false

namespace Verif.Symm
open Verif.Hilbert (Err)
open Finset

variable {K : Type} [CommRing K]

theorem symmetrizerCol_eq (perms : Nat → Nat → Nat) (m F i f g : Nat) (hf : f < F) (hg : g < m) :
    symmetrizerCol perms m F ((i * F + f) * m + g) = perms g i * F + f := by
  have e : (i * F + f) * m + g = i * (F * m) + (f * m + g) := by ring
  obtain ⟨h1, h2⟩ := divmod (F * m) i (f * m + g) (flat_lt hf hg)
  obtain ⟨h3, h4⟩ := divmod m f g hg
  unfold symmetrizerCol
  simp only
  rw [e, h1, h2, h3, h4]

theorem fullKernel_eq (perms : Nat → Nat → Nat) (m F i f g : Nat) (hf : f < F) (hg : g < m) (w : Nat → Nat → K) :
    fullKernel perms m F w ((i * F + f) * m + g) = w (perms g i) f := by
  obtain ⟨h1, h2⟩ := divmod F (perms g i) f hf
  unfold fullKernel flatten2
  rw [symmetrizerCol_eq perms m F i f g hf hg, h1, h2]

theorem denseSymm_eq (n m F : Nat) (perms : Nat → Nat → Nat) (mask bias : Option (Nat → K)) (w : Nat → Nat → K) (x : Nat → K)
    (f g : Nat) (hf : f < F) (hg : g < m) :
    denseSymm n m F perms mask bias w x f g = addBias bias f (∑ i ∈ range n, x i * maskKernel mask w (perms g i) f) := by
  unfold denseSymm
  congr 1
  exact sum_congr rfl fun i _ => by rw [fullKernel_eq perms m F i f g hf hg]

/-- C61: what the layer computes, in the terms of the documentation: entry (f, g) is the kernel column `f` applied to the input with
    the sites permuted by `g`, plus the bias of feature `f`. -/
theorem C61_formula (n m F : Nat) (perms : Nat → Nat → Nat) (b : Nat → K) (w : Nat → Nat → K) (x : Nat → K) (f g : Nat) (hf : f < F)
    (hg : g < m) :
    denseSymm n m F perms none (some b) w x f g = ∑ i ∈ range n, x i * w (perms g i) f + b f
    ∧ (∀ mk : Nat → K, denseSymm n m F perms (some mk) none w x f g = ∑ i ∈ range n, x i * (w (perms g i) f * mk (perms g i))) :=
  ⟨denseSymm_eq n m F perms none (some b) w x f g hf hg, fun mk => denseSymm_eq n m F perms (some mk) none w x f g hf hg⟩

/-- every symmetry permutes the labels of the group elements. -/
theorem exists_translate (n m : Nat) (perms : Nat → Nat → Nat) (G : IsPermGroup n m perms) (h : Nat) (hh : h < m) :
    ∃ s, IsTranslate n m perms h s := by
  classical
  choose! s hs using fun k (hk : k < m) => G.closed k hk h hh
  have hinj : ∀ k < m, ∀ l < m, s k = s l → k = l := by
    intro k hk l hl e
    refine G.nodup k hk l hl fun i hi => ?_
    obtain ⟨j, hj, rfl⟩ := range_surj (G.lt h hh) (G.inj h hh) i hi
    rw [← (hs k hk).2 j hj, ← (hs l hl).2 j hj, e]
  exact ⟨s, ⟨fun k hk => (hs k hk).1, hinj, range_surj (fun k hk => (hs k hk).1) hinj⟩, fun k hk => (hs k hk).2⟩

theorem denseSymm_translate (n m F : Nat) (perms : Nat → Nat → Nat) (G : IsPermGroup n m perms) (h : Nat) (hh : h < m) (s : Nat → Nat)
    (T : IsTranslate n m perms h s) (mask bias : Option (Nat → K)) (w : Nat → Nat → K) (x : Nat → K) (f : Nat) (hf : f < F) (k : Nat)
    (hk : k < m) :
    denseSymm n m F perms mask bias w (fun i => x (perms h i)) f (s k) = denseSymm n m F perms mask bias w x f k := by
  rw [denseSymm_eq n m F perms mask bias w _ f (s k) hf (T.1.1 k hk), denseSymm_eq n m F perms mask bias w x f k hf hk]
  congr 1
  rw [← sum_range_perm (G.lt h hh) (G.inj h hh) fun i => x i * maskKernel mask w (perms k i) f]
  exact sum_congr rfl fun i hi => by rw [T.2 k hk i (mem_range.1 hi)]

/-- C61: permuting the input by a symmetry permutes the group axis of the output, by multiplication in the group. -/
theorem C61_equivariant (n m F : Nat) (perms : Nat → Nat → Nat) (G : IsPermGroup n m perms) (mask bias : Option (Nat → K))
    (w : Nat → Nat → K) (h : Nat) (hh : h < m) :
    ∃ s, IsTranslate n m perms h s ∧ ∀ (x : Nat → K), ∀ f < F, ∀ k < m,
      denseSymm n m F perms mask bias w (fun i => x (perms h i)) f (s k) = denseSymm n m F perms mask bias w x f k := by
  obtain ⟨s, T⟩ := exists_translate n m perms G h hh
  exact ⟨s, T, fun x f hf k hk => denseSymm_translate n m F perms G h hh s T mask bias w x f hf k hk⟩

/-- C61: RBMSymm returns the same log-amplitude for symmetry-related configurations, whatever the activation and parameters. -/
theorem C61_rbm_invariant (act : K → K) (n m F : Nat) (perms : Nat → Nat → Nat) (G : IsPermGroup n m perms)
    (hb : Option (Nat → K)) (vb : Option K) (w : Nat → Nat → K) (x : Nat → K) (h : Nat) (hh : h < m) :
    rbmSymm act n m F perms hb vb w (fun i => x (perms h i)) = rbmSymm act n m F perms hb vb w x := by
  obtain ⟨s, T⟩ := exists_translate n m perms G h hh
  have e : ∑ q ∈ range (F * m), act (flatten2 m (denseSymm n m F perms none hb w fun i => x (perms h i)) q)
      = ∑ q ∈ range (F * m), act (flatten2 m (denseSymm n m F perms none hb w x) q) := by
    unfold flatten2
    rw [sum_range_divmod F m fun f g => act (denseSymm n m F perms none hb w (fun i => x (perms h i)) f g),
      sum_range_divmod F m fun f g => act (denseSymm n m F perms none hb w x f g)]
    refine sum_congr rfl fun f hf => ?_
    rw [← sum_range_perm T.1.1 T.1.2.1 fun g => act (denseSymm n m F perms none hb w (fun i => x (perms h i)) f g)]
    exact sum_congr rfl fun k hk => by
      rw [denseSymm_translate n m F perms G h hh s T none hb w x f (mem_range.1 hf) k (mem_range.1 hk)]
  unfold rbmSymm
  simp only [e]
  cases vb with
  | none => rfl
  | some v => simp only [sum_range_perm (G.lt h hh) (G.inj h hh) x]

/-- C61: what RBMSymm computes. -/
theorem C61_rbm_value (act : K → K) (n m F : Nat) (perms : Nat → Nat → Nat) (b : Nat → K) (v : K) (w : Nat → Nat → K) (x : Nat → K) :
    rbmSymm act n m F perms (some b) (some v) w x
      = ∑ f ∈ range F, ∑ g ∈ range m, act (∑ i ∈ range n, x i * w (perms g i) f + b f) + v * ∑ i ∈ range n, x i := by
  unfold rbmSymm flatten2
  simp only
  rw [sum_range_divmod F m fun f g => act (denseSymm n m F perms none (some b) w x f g)]
  congr 1
  exact sum_congr rfl fun f hf => sum_congr rfl fun g hg => by
    rw [(C61_formula n m F perms b w x f g (mem_range.1 hf) (mem_range.1 hg)).1]

/-- C61: the number of features: at least one whenever the layer is built with a positive density, never more than asked for
    (features · n_symm ≤ alpha · n_sites), and as many as possible. -/
theorem C61_features (aN aD n m F : Nat) (hD : 0 < aD) (hm : 0 < m) (h : rbmFeatures aN aD n m = .ok F) :
    (0 < aN → 0 < F) ∧ F * m * aD ≤ aN * n ∧ aN * n < (F + 1) * m * aD := by
  unfold rbmFeatures at h
  simp only at h
  have hpos : 0 < aD * m := Nat.mul_pos hD hm
  split at h
  · simp at h
  · rename_i hc
    obtain rfl := Except.ok.inj h
    refine ⟨fun ha => ?_, ?_, ?_⟩
    · rcases Nat.eq_zero_or_pos (aN * n / (aD * m)) with h0 | h0
      · exact absurd ⟨ha, h0⟩ hc
      · exact h0
    · calc aN * n / (aD * m) * m * aD = aN * n / (aD * m) * (aD * m) := by ring
        _ ≤ aN * n := Nat.div_mul_le_self _ _
    · calc aN * n < (aN * n / (aD * m) + 1) * (aD * m) := (Nat.div_lt_iff_lt_mul hpos).1 (Nat.lt_succ_self _)
        _ = _ := by ring

/-- the translations of a ring of three sites together with its reflections (S₃). -/
def s3 : Nat → Nat → Nat := fun g i =>
  (([[0, 1, 2], [1, 2, 0], [2, 0, 1], [0, 2, 1], [2, 1, 0], [1, 0, 2]] : List (List Nat)).getD g []).getD i 0

theorem s3_group : IsPermGroup 3 6 s3 := by
  refine ⟨by decide +kernel, by decide +kernel, by decide +kernel, by decide +kernel⟩

example : denseSymm 3 6 2 s3 none (some fun f => [(10 : Int), 20].getD f 0) (fun k l => (k : Int) + 5 * l)
    (fun i => [(1 : Int), 10, 100].getD i 0) 1 3 = 1 * 5 + 10 * 7 + 100 * 6 + 20 := by decide +kernel

example : rbmSymm (fun t => t * t) 3 6 1 s3 none (some (2 : Int)) (fun k _ => (k : Int)) (fun i => [(1 : Int), 10, 100].getD i 0)
    = rbmSymm (fun t => t * t) 3 6 1 s3 none (some (2 : Int)) (fun k _ => (k : Int)) (fun i => [(10 : Int), 100, 1].getD i 0) := by
  decide +kernel

example : rbmFeatures 3 2 4 2 = .ok 3 ∧ rbmFeatures 1 1 4 8 = .error .valueError := by decide +kernel

end Verif.Symm
