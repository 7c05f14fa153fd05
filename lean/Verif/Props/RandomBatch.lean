import Verif.Spec.RandomStates
import Verif.Props.RandomState
import Mathlib.Data.List.GetD

/-! C162: `random_state` returns arrays of the documented shape whose rows are states of the space. -/

namespace Verif.RandomBatch
open Verif.Hilbert (Err)
open Verif.RandomState

variable {K : Type}

theorem batchLoop_spec (row : (Nat → Nat → Nat) → Except Err (List Int)) (P : List Int → Prop)
    (h : ∀ draw : Nat → Nat → Nat, (∀ k m, 0 < m → draw k m < m) → ∃ x, row draw = .ok x ∧ P x)
    (count : Nat) (draw : Nat → Nat → Nat) (hd : ∀ k m, 0 < m → draw k m < m) (b used : Nat) :
    ∃ rows, batchLoop row count draw b used = .ok rows ∧ rows.length = b ∧ ∀ r ∈ rows, P r := by
  induction b generalizing used with
  | zero => exact ⟨[], rfl, rfl, by simp⟩
  | succ b ih =>
    obtain ⟨x, hx, hP⟩ := h (fun k m => draw (used + k) m) (fun k m hm => hd _ _ hm)
    obtain ⟨rows, h1, h2, h3⟩ := ih (used + count)
    refine ⟨x :: rows, by simp only [batchLoop, hx, h1], by simp [h2], ?_⟩
    intro r hr
    rcases List.mem_cons.1 hr with rfl | hr
    · exact hP
    · exact h3 r hr

theorem checkTotalSz_of (t N : Nat) (m : Int) (h1 : m.natAbs ≤ N * t) (h2 : (2 : Int) ∣ t * N + m) :
    checkTotalSz t m N = true := by
  unfold checkTotalSz
  rw [if_neg (by omega)]
  have h3 : ((t : Int) * N + m) % 2 = 0 := by omega
  split
  · rename_i ht
    have ht' : (t : Int) % 2 = 1 := by omega
    have : ((t : Int) * N) % 2 = (N : Int) % 2 := by rw [Int.mul_emod, ht']; simp
    simp only [decide_eq_true_eq]; omega
  · rename_i ht
    have ht' : (t : Int) % 2 = 0 := by omega
    have : ((t : Int) * N) % 2 = 0 := by rw [Int.mul_emod, ht']; simp
    simp only [decide_eq_true_eq]; omega

theorem spin_vals (t : Nat) (v : Int) (h : ∃ k : Nat, k ≤ t ∧ v = -(t : Int) + 2 * k) :
    -(t : Int) ≤ v ∧ v ≤ t ∧ (2 : Int) ∣ v - t := by
  obtain ⟨k, hk, rfl⟩ := h
  exact ⟨by omega, by omega, by omega⟩

theorem allOk_map {α : Type} (l : List (Except Err α)) (l' : List α) (h : List.Forall₂ (fun e a => e = .ok a) l l') :
    allOk l = .ok l' := by
  induction h with
  | nil => rfl
  | cons hd _ ih => subst hd; simp only [allOk, ih]

theorem spinBatch_spec (g : Rng K) (hg : g.Good) (key : K) (b t N : Nat) (sz : Option Int) (h : Supported (.spin t N sz)) :
    ∃ rows, spinBatch g key b t N sz = .ok rows ∧ rows.length = b ∧ ∀ r ∈ rows, Member (.spin t N sz) r := by
  obtain ⟨ht, hm⟩ := h
  cases sz with
  | none =>
    refine ⟨_, rfl, by rw [List.length_map, hg.randint_length], ?_⟩
    intro r hr
    obtain ⟨rs, hrs, rfl⟩ := List.mem_map.1 hr
    obtain ⟨h1, h2⟩ := C07_spin_unconstrained t rs (fun v hv => hg.randint_lt key b N (t + 1) (by omega) rs hrs v hv)
    exact ⟨by rw [h1, hg.randint_row key b N (t + 1) rs hrs], fun v hv => spin_vals t v (h2 v hv), by simp⟩
  | some m =>
    obtain ⟨h1, h2⟩ := hm m rfl
    have hchk := checkTotalSz_of t N m h1 h2
    simp only [spinBatch]
    split
    · rename_i h2
      have : t = 1 := by omega
      subst this
      refine ⟨_, rfl, by simp [hg.split], ?_⟩
      intro r hr
      obtain ⟨p, hp, rfl⟩ := List.mem_map.1 hr
      have hp2 : p.2 = spinHalfUnshuffled N m := by
        have := (List.of_mem_zip hp).2
        exact List.eq_of_mem_replicate this
      obtain ⟨g1, g2, g3⟩ := C07_spin_half_random_state N m hchk (g.permutation p.1 p.2) (by rw [← hp2]; exact hg.permutation _ _)
      refine ⟨g1, fun v hv => ?_, fun m' hm' => by cases hm'; exact g2⟩
      rcases g3 v hv with h | h <;> subst h <;> refine ⟨by decide, by decide, by decide⟩
    · refine batchLoop_spec _ _ ?_ _ _ (hg.integers key) b 0
      intro draw hd
      obtain ⟨x, g1, g2, g3, g4⟩ := C07_spin_random_state N t ht m hchk draw hd
      exact ⟨x, g1, g2, fun v hv => spin_vals t v (g4 v hv), fun m' hm' => by cases hm'; exact g3⟩

theorem fockBatch_spec (g : Rng K) (hg : g.Good) (key : K) (b nmax N : Nat) (p : Option Nat) (h : Supported (.fock nmax N p)) :
    ∃ rows, fockBatch g key b nmax N p = .ok rows ∧ rows.length = b ∧ ∀ r ∈ rows, Member (.fock nmax N p) r := by
  cases p with
  | none =>
    refine ⟨_, rfl, by rw [List.length_map, hg.randint_length], ?_⟩
    intro r hr
    obtain ⟨rs, hrs, rfl⟩ := List.mem_map.1 hr
    refine ⟨by rw [List.length_map, hg.randint_row key b N (nmax + 1) rs hrs], fun v hv => ?_, by simp⟩
    obtain ⟨k, hk, rfl⟩ := List.mem_map.1 hv
    have := hg.randint_lt key b N (nmax + 1) (by omega) rs hrs k hk
    omega
  | some k =>
    obtain ⟨h1, h2⟩ := h k rfl
    refine batchLoop_spec _ _ ?_ _ _ (hg.integers key) b 0
    intro draw hd
    obtain ⟨x, g1, g2, g3, g4⟩ := C07_fock_random_state N nmax k (by simp [checkParticles, h1, h2]) draw hd
    exact ⟨x, g1, g2, fun v hv => g4 v hv, fun m' hm' => by cases hm'; exact g3⟩

/-- rows of an index array below `l.length`, mapped to the entries. -/
theorem getD_mem (l : List Int) (v : Nat) (h : v < l.length) : l.getD v 0 ∈ l := by
  rw [List.getD_eq_getElem _ _ h]
  exact List.getElem_mem h

mutual
/-- every supported space: the batch has the requested number of rows, all of them states of the space. -/
theorem randomBatch_spec (g : Rng K) (hg : g.Good) (b : Nat) : (s : Space) → (key : K) → Supported s →
    ∃ rows, randomBatch g b s key = .ok rows ∧ rows.length = b ∧ ∀ r ∈ rows, Member s r
  | .spin t N sz, key, h => by
    simpa only [randomBatch] using spinBatch_spec g hg key b t N sz h
  | .fock nmax N p, key, h => by
    simpa only [randomBatch] using fockBatch_spec g hg key b nmax N p h
  | .qubit N, key, _ => by
    refine ⟨_, by simp only [randomBatch]; rfl, by rw [List.length_map, hg.randint_length], ?_⟩
    intro r hr
    obtain ⟨rs, hrs, rfl⟩ := List.mem_map.1 hr
    refine ⟨by rw [List.length_map, hg.randint_row key b N 2 rs hrs], fun v hv => ?_⟩
    obtain ⟨k, hk, rfl⟩ := List.mem_map.1 hv
    have := hg.randint_lt key b N 2 (by omega) rs hrs k hk
    omega
  | .custom ls N c, key, h => by
    obtain ⟨⟨l, rfl, hl⟩, rfl⟩ := h
    refine ⟨_, by simp only [randomBatch, customBatch]; rfl, by rw [List.length_map, hg.randint_length], ?_⟩
    intro r hr
    obtain ⟨rs, hrs, rfl⟩ := List.mem_map.1 hr
    refine ⟨by rw [List.length_map, hg.randint_row key b N l.length rs hrs], fun l' hl' v hv => ?_⟩
    cases hl'
    obtain ⟨k, hk, rfl⟩ := List.mem_map.1 hv
    exact getD_mem l k (hg.randint_lt key b N l.length (List.length_pos_iff.2 hl) rs hrs k hk)
  | .tensor l, key, h => by
    obtain ⟨vs, h1, h2⟩ := randomParts_spec g hg b l (g.split key l.length) (hg.split key l.length) h
    refine ⟨hcat b vs, by simp only [randomBatch, allOk_map _ _ h1], by simp [hcat], ?_⟩
    intro r hr
    obtain ⟨i, hi, rfl⟩ := List.mem_map.1 hr
    exact h2 i (List.mem_range.1 hi)
  | .doubled s, key, h => by
    obtain ⟨v1, h1, h2, h3⟩ := randomBatch_spec g hg b s ((g.split key 2).getD 0 key) h
    obtain ⟨v2, k1, k2, k3⟩ := randomBatch_spec g hg b s ((g.split key 2).getD 1 key) h
    refine ⟨hcat b [v1, v2], by simp only [randomBatch, h1, k1], by simp [hcat], ?_⟩
    intro r hr
    obtain ⟨i, hi, rfl⟩ := List.mem_map.1 hr
    have hi' := List.mem_range.1 hi
    refine ⟨v1.getD i [], v2.getD i [], by simp, ?_, ?_⟩
    · rw [List.getD_eq_getElem _ _ (by omega)]; exact h3 _ (List.getElem_mem _)
    · rw [List.getD_eq_getElem _ _ (by omega)]; exact k3 _ (List.getElem_mem _)
/-- the parts of a tensor product. -/
theorem randomParts_spec (g : Rng K) (hg : g.Good) (b : Nat) : (l : List Space) → (keys : List K) → keys.length = l.length →
    SupportedParts l →
    ∃ vs, List.Forall₂ (fun (e : Except Err (List (List Int))) a => e = .ok a) (randomParts g b l keys) vs ∧
      ∀ i < b, MemberParts l ((vs.map fun v => v.getD i []).flatten)
  | [], keys, _, _ => ⟨[], by cases keys <;> simp [randomParts], by intro i _; simp [MemberParts]⟩
  | s :: l, [], h, _ => by simp at h
  | s :: l, key :: keys, h, hs => by
    obtain ⟨v, h1, h2, h3⟩ := randomBatch_spec g hg b s key hs.1
    obtain ⟨vs, k1, k2⟩ := randomParts_spec g hg b l keys (by simpa using h) hs.2
    refine ⟨v :: vs, by simp only [randomParts]; exact .cons h1 k1, ?_⟩
    intro i hi
    refine ⟨v.getD i [], (vs.map fun v => v.getD i []).flatten, by simp, ?_, k2 i hi⟩
    rw [List.getD_eq_getElem _ _ (by omega)]
    exact h3 _ (List.getElem_mem _)
end

/-- C162: for every supported space, key and size (an integer, none, or up to three positive dimensions) `random_state` succeeds, the result
    has the documented shape, and every row is a state of the space. -/
theorem C162_random_state (g : Rng K) (hg : g.Good) (s : Space) (hs : Supported s) (key : K) (size : Size)
    (hsize : ∀ l, size = .dims l → 1 ≤ l.length ∧ l.length ≤ 3 ∧ 0 < l.prod) :
    ∃ B, randomState g s key size = .ok B ∧ B.shape = size.lead ∧ B.rows.length = size.lead.prod ∧ ∀ r ∈ B.rows, Member s r := by
  cases size with
  | none =>
    obtain ⟨rows, h1, h2, h3⟩ := randomBatch_spec g hg 1 s key hs
    obtain ⟨r, rfl⟩ := List.length_eq_one_iff.1 h2
    exact ⟨⟨[], [r]⟩, by simp [randomState, h1], rfl, rfl, h3⟩
  | int n =>
    obtain ⟨rows, h1, h2, h3⟩ := randomBatch_spec g hg n s key hs
    exact ⟨⟨[n], rows⟩, by simp [randomState, h1], rfl, by simpa [Size.lead] using h2, h3⟩
  | dims l =>
    obtain ⟨a1, a2, a3⟩ := hsize l rfl
    obtain ⟨rows, h1, h2, h3⟩ := randomBatch_spec g hg l.prod s key hs
    have a4 : ¬ l.prod = 0 := by omega
    have a5 : l.length = 1 ∨ l.length = 2 ∨ l.length = 3 := by omega
    exact ⟨⟨l, rows⟩, by simp only [randomState, if_pos a5, h1, if_neg a4], rfl, by simpa [Size.lead] using h2, h3⟩

/-- C162, the sizes are consistent: a single state is the row of a batch of one, and a tuple gives the rows of the batch of its product. -/
theorem C162_sizes (g : Rng K) (s : Space) (key : K) (l : List Nat) (hl : 1 ≤ l.length ∧ l.length ≤ 3 ∧ 0 < l.prod) :
    (∀ B, randomState g s key (.dims l) = .ok B ↔ B.shape = l ∧ randomState g s key (.int l.prod) = .ok ⟨[l.prod], B.rows⟩) ∧
    (∀ r, randomState g s key (.int 1) = .ok ⟨[1], [r]⟩ → randomState g s key .none = .ok ⟨[], [r]⟩) := by
  have a4 : ¬ l.prod = 0 := by omega
  have a5 : l.length = 1 ∨ l.length = 2 ∨ l.length = 3 := by omega
  constructor
  · intro B
    simp only [randomState, if_pos a5]
    cases randomBatch g l.prod s key with
    | error e => simp
    | ok rows =>
      simp only [if_neg a4]
      constructor
      · intro h; cases h; exact ⟨rfl, rfl⟩
      · rintro ⟨h1, h2⟩
        cases B
        simp_all
  · intro r
    simp only [randomState]
    cases randomBatch g 1 s key with
    | error e => simp
    | ok rows =>
      intro h
      simp only [Except.ok.injEq, Batch.mk.injEq, true_and] at h
      subst h
      rfl

theorem allOk_parts_error (g : Rng K) (hg : g.Good) (b : Nat) (bad : Space) (hbad : ∀ key, randomBatch g b bad key = .error .notImplemented)
    (pre post : List Space) (hp : SupportedParts pre) (keys : List K) (hk : keys.length = (pre ++ bad :: post).length) :
    allOk (randomParts g b (pre ++ bad :: post) keys) = .error .notImplemented := by
  induction pre generalizing keys with
  | nil =>
    cases keys with
    | nil => simp at hk
    | cons key keys => simp only [List.nil_append, randomParts, hbad, allOk]
  | cons s l ih =>
    cases keys with
    | nil => simp at hk
    | cons key keys =>
      obtain ⟨v, h1, _, _⟩ := randomBatch_spec g hg b s key hp.1
      simp only [List.cons_append, randomParts, h1, allOk, ih hp.2 keys (by simpa using hk)]

/-- C162: a `CustomHilbert` with a constraint or infinitely many local states is refused, on its own and inside products or doubled spaces. -/
theorem C162_unsupported (g : Rng K) (hg : g.Good) (ls : Option (List Int)) (N : Nat) (c : Bool) (h : ls = none ∨ c = true) (key : K)
    (b : Nat) (pre post : List Space) (hp : SupportedParts pre) :
    randomBatch g b (.custom ls N c) key = .error .notImplemented ∧
    randomBatch g b (.doubled (.custom ls N c)) key = .error .notImplemented ∧
    randomBatch g b (.tensor (pre ++ .custom ls N c :: post)) key = .error .notImplemented := by
  have h0 : ∀ key, randomBatch g b (.custom ls N c) key = .error .notImplemented := by
    intro key
    simp only [randomBatch, customBatch]
    cases ls with
    | none => rfl
    | some l => rcases h with h | h <;> simp_all
  refine ⟨h0 key, ?_, ?_⟩
  · rw [randomBatch.eq_def]; simp only [h0]
  · rw [randomBatch.eq_def]; simp only [allOk_parts_error g hg b _ h0 pre post hp _ (hg.split _ _)]

/-- a generator for the examples. -/
def exRng : Rng Nat where
  split := fun key n => (List.range n).map fun i => key + i
  randint := fun key b n m => (List.range b).map fun i => (List.range n).map fun j => (key + i + 2 * j) % m
  permutation := fun _ x => x.reverse
  integers := fun key k m => (key + k) % m

theorem exRng_good : exRng.Good where
  split := by simp [exRng]
  randint_length := by simp [exRng]
  randint_row := by
    intro key b n m r hr
    obtain ⟨i, _, rfl⟩ := List.mem_map.1 hr
    simp
  randint_lt := by
    intro key b n m hm r hr v hv
    obtain ⟨i, _, rfl⟩ := List.mem_map.1 hr
    obtain ⟨j, _, rfl⟩ := List.mem_map.1 hv
    exact Nat.mod_lt _ hm
  permutation := fun _ x => List.reverse_perm x
  integers := fun _ _ _ hm => Nat.mod_lt _ hm

/-- two bosons on two sites, three spins with `total_sz = 1/2`, and two spins-1 doubled. -/
def exSpace : Space := .tensor [.fock 2 2 (some 2), .spin 1 3 (some 1), .doubled (.spin 2 2 none)]

example : Supported exSpace := by
  refine ⟨?_, ?_, ?_, trivial⟩
  · intro k hk; cases hk; decide
  · refine ⟨by decide, ?_⟩; intro m hm; cases hm; decide
  · exact ⟨by decide, by simp⟩

example : randomState exRng exSpace 1 (.dims [2, 1]) =
    .ok ⟨[2, 1], [[1, 1, -1, 1, 1, -2, 2, 0, -2], [1, 1, -1, 1, 1, 0, -2, 2, 0]]⟩ := by decide +kernel

example : randomState exRng exSpace 1 .none = .ok ⟨[], [[1, 1, -1, 1, 1, -2, 2, 0, -2]]⟩ := by decide +kernel

end Verif.RandomBatch
