import Verif.Model.RandomState
import Mathlib.Algebra.BigOperators.Group.List.Basic
import Mathlib.Algebra.Order.BigOperators.Group.List
import Mathlib.Tactic.Ring
import Mathlib.Tactic.Linarith
import Mathlib.Tactic.NormNum
import Mathlib.Data.List.Nodup

/-! Property C07: constrained `random_state` returns valid configurations. -/

namespace Verif.RandomState
open Verif.Hilbert

theorem sum_set (l : List Int) (i : Nat) (v : Int) (h : i < l.length) :
    (l.set i v).sum = l.sum + (v - l[i]) := by
  induction l generalizing i with
  | nil => simp at h
  | cons a l ih =>
    cases i with
    | zero => simp; ring
    | succ i =>
      simp only [List.set_cons_succ, List.sum_cons, List.getElem_cons_succ]
      rw [ih i (by simpa using h)]
      ring

theorem sum_replicate_int (n : Nat) (a : Int) : (List.replicate n a).sum = n * a := by
  simp [List.sum_replicate]

theorem sum_le_of_all (l : List Int) (c : Int) (h : ∀ x ∈ l, x = c) : l.sum = l.length * c := by
  rw [List.eq_replicate_of_mem h]
  simp

/-- the loop invariant, for start value `lo`, increment `inc` and top value `lo + inc*q`. -/
theorem fillLoop_spec (lo inc : Int) (q N : Nat) (hinc : 0 < inc) (full : Int → Bool)
    (hfull : ∀ c : Nat, c ≤ q → (full (lo + inc * c) = true ↔ c = q))
    (draw : Nat → Nat → Nat) (hdraw : ∀ k m, 0 < m → draw k m < m)
    (n k : Nat) (out : List Int) (sites : List Nat)
    (hlen : out.length = N) (hnd : sites.Nodup)
    (hval : ∀ j (h : j < out.length), ∃ c : Nat, c ≤ q ∧ out[j] = lo + inc * c ∧ (j ∈ sites ↔ c < q))
    (hsites : ∀ j ∈ sites, j < N)
    (hroom : out.sum + inc * n ≤ (lo + inc * q) * N) :
    ∃ res, fillLoop inc full draw n k out sites = .ok res ∧ res.length = N ∧
      res.sum = out.sum + inc * n ∧
      ∀ x ∈ res, ∃ c : Nat, c ≤ q ∧ x = lo + inc * c := by
  induction n generalizing k out sites with
  | zero =>
    refine ⟨out, rfl, hlen, by simp, ?_⟩
    intro x hx
    obtain ⟨j, hj, rfl⟩ := List.mem_iff_getElem.1 hx
    obtain ⟨c, h1, h2, _⟩ := hval j hj
    exact ⟨c, h1, h2⟩
  | succ n ih =>
    have hne : sites.length ≠ 0 := by
      intro h0
      have hnil : sites = [] := List.eq_nil_of_length_eq_zero h0
      have hall : ∀ x ∈ out, x = lo + inc * q := by
        intro x hx
        obtain ⟨j, hj, rfl⟩ := List.mem_iff_getElem.1 hx
        obtain ⟨c, h1, h2, h3⟩ := hval j hj
        have : ¬ c < q := by rw [← h3, hnil]; simp
        rw [h2, show c = q by omega]
      have := sum_le_of_all out _ hall
      rw [hlen] at this
      rw [this] at hroom
      push_cast at hroom
      nlinarith
    have hs := hdraw k sites.length (by omega)
    have hsite : sites[draw k sites.length]? = some sites[draw k sites.length] :=
      List.getElem?_eq_getElem hs
    generalize hsd : sites[draw k sites.length] = site at hsite
    have hmem : site ∈ sites := hsd ▸ List.getElem_mem hs
    have hlt : site < out.length := by rw [hlen]; exact hsites site hmem
    obtain ⟨c, hc1, hc2, hc3⟩ := hval site hlt
    have hcq : c < q := hc3.1 hmem
    have hv' : out[site] + inc = lo + inc * ((c + 1 : Nat) : Int) := by
      rw [hc2]; push_cast; ring
    have hf := hfull (c + 1) (by omega)
    simp only [fillLoop, if_neg hne, hsite, List.getElem?_eq_getElem hlt]
    have hmem_erase : ∀ j, j ∈ sites.eraseIdx (draw k sites.length) ↔ j ∈ sites ∧ j ≠ site := by
      intro j
      rw [← hsd]
      rw [← hnd.erase_getElem _ hs, hnd.mem_erase_iff, and_comm]
    have hsum : (out.set site (out[site] + inc)).sum + inc * (n : Int) =
        out.sum + inc * ((n + 1 : Nat) : Int) := by
      rw [sum_set _ _ _ hlt]; push_cast; ring
    have hstep := ih (k + 1) (out.set site (out[site] + inc))
      (if full (out[site] + inc) = true then sites.eraseIdx (draw k sites.length) else sites)
      (by simpa using hlen)
      (by
        split
        · exact hnd.eraseIdx _
        · exact hnd)
      (by
        intro j hj
        by_cases hjs : j = site
        · subst hjs
          refine ⟨c + 1, by omega, by simp [hv'], ?_⟩
          have hf' : full (out[j] + inc) = true ↔ c + 1 = q := by rw [hv']; exact hf
          split
          · rename_i hh
            have := hf'.1 hh
            rw [hmem_erase]
            constructor
            · rintro ⟨_, h⟩; exact absurd rfl h
            · intro h; omega
          · rename_i hh
            have : ¬ c + 1 = q := fun h => hh (hf'.2 h)
            constructor
            · intro _; omega
            · intro _; exact hmem
        · have hj' : j < out.length := by simpa using hj
          obtain ⟨c', h1, h2, h3⟩ := hval j hj'
          refine ⟨c', h1, ?_, ?_⟩
          · rw [List.getElem_set_ne (fun h => hjs h.symm)]; exact h2
          · split
            · rw [hmem_erase, h3]
              exact ⟨fun h => h.1, fun h => ⟨h, hjs⟩⟩
            · exact h3)
      (by
        intro j hj
        split at hj
        · exact hsites j ((hmem_erase j).1 hj).1
        · exact hsites j hj)
      (by rw [hsum]; exact hroom)
    obtain ⟨res, h1, h2, h3, h4⟩ := hstep
    exact ⟨res, h1, h2, by rw [h3, hsum], h4⟩

/-- C07, Fock: for every n_max, N, n_particles accepted by the constructor and every random stream,
    the sampler never fails and returns N occupations in 0..n_max with the required total. -/
theorem C07_fock_random_state (N nmax np : Nat) (hchk : checkParticles nmax N np = true)
    (draw : Nat → Nat → Nat) (hdraw : ∀ k m, 0 < m → draw k m < m) :
    ∃ σ, fockConstrained N nmax np draw = .ok σ ∧ σ.length = N ∧ σ.sum = np ∧
      ∀ x ∈ σ, 0 ≤ x ∧ x ≤ nmax := by
  simp only [checkParticles, Bool.and_eq_true, decide_eq_true_eq] at hchk
  have hnm : 0 < nmax := by
    rcases Nat.eq_zero_or_pos nmax with h | h
    · subst h; omega
    · exact h
  obtain ⟨res, h1, h2, h3, h4⟩ := fillLoop_spec 0 1 nmax N (by decide) (fun v => v == nmax)
    (by intro c hc; simp) draw hdraw np 0
    (List.replicate N 0) (List.range N) (by simp) List.nodup_range
    (by
      intro j hj
      refine ⟨0, by omega, by simp, ?_⟩
      simp at hj ⊢
      omega)
    (by simp)
    (by
      rw [sum_replicate_int]
      have : ((np : Nat) : Int) ≤ ((nmax * N : Nat) : Int) := by exact_mod_cast hchk.2
      push_cast at this
      linarith)
  refine ⟨res, h1, h2, ?_, ?_⟩
  · rw [h3, sum_replicate_int]; ring
  · intro x hx
    obtain ⟨c, hc, rfl⟩ := h4 x hx
    omega

/-- C07, Spin with any spin quantum number (the general fallback sampler): values `-t, -t+2, .., t`
    and total `m = 2 total_sz` whenever the constructor accepts `total_sz`. -/
theorem C07_spin_random_state (N t : Nat) (ht : 0 < t) (m : Int) (hchk : checkTotalSz t m N = true)
    (draw : Nat → Nat → Nat) (hdraw : ∀ k m, 0 < m → draw k m < m) :
    ∃ σ, spinConstrained N t m draw = .ok σ ∧ σ.length = N ∧ σ.sum = m ∧
      ∀ x ∈ σ, ∃ k : Nat, k ≤ t ∧ x = -(t : Int) + 2 * k := by
  have habs : m.natAbs ≤ N * t ∧ (((t : Int) * N + m) % 2 = 0) := by
    unfold checkTotalSz at hchk
    split at hchk
    · simp at hchk
    · rename_i h
      refine ⟨by omega, ?_⟩
      split at hchk
      · rename_i h2
        have h3 : ((N : Int) + m) % 2 = 0 := by simpa using hchk
        obtain ⟨u, hu⟩ : ∃ u, t = 2 * u + 1 := ⟨t / 2, by omega⟩
        have : (t : Int) * N + m = 2 * (u * N) + (N + m) := by subst hu; push_cast; ring
        omega
      · rename_i h2
        have h3 : m % 2 = 0 := by simpa using hchk
        obtain ⟨u, hu⟩ : ∃ u, t = 2 * u := ⟨t / 2, by omega⟩
        have : (t : Int) * N + m = 2 * (u * N) + m := by subst hu; push_cast; ring
        omega
  obtain ⟨ha, hp⟩ := habs
  have hb : -((N : Int) * t) ≤ m ∧ m ≤ (N : Int) * t := by
    have : ((m.natAbs : Nat) : Int) ≤ ((N * t : Nat) : Int) := by exact_mod_cast ha
    push_cast at this
    constructor <;> (cases abs_le.1 this; linarith)
  have hcnt : 2 * ((((t : Int) * N + m) / 2).toNat : Int) = (t : Int) * N + m := by
    have h0 : 0 ≤ (t : Int) * N + m := by nlinarith [hb.1]
    omega
  obtain ⟨res, h1, h2, h3, h4⟩ := fillLoop_spec (-(t : Int)) 2 t N (by decide)
    (fun v => decide (v > (t : Int) - 1)) (by intro c hc; simp; omega) draw hdraw
    (((t : Int) * N + m) / 2).toNat 0
    (List.replicate N (-(t : Int))) (List.range N) (by simp) List.nodup_range
    (by
      intro j hj
      refine ⟨0, by omega, by simp, ?_⟩
      simp at hj ⊢
      omega)
    (by simp)
    (by rw [sum_replicate_int, hcnt]; nlinarith [hb.2])
  refine ⟨res, h1, h2, ?_, h4⟩
  rw [h3, sum_replicate_int, hcnt]; ring

/-- C07, Spin(1/2) with total_sz: every shuffle of the prepared row is valid. -/
theorem C07_spin_half_random_state (N : Nat) (m : Int) (hchk : checkTotalSz 1 m N = true)
    (σ : List Int) (hσ : σ.Perm (spinHalfUnshuffled N m)) :
    σ.length = N ∧ σ.sum = m ∧ ∀ x ∈ σ, x = 1 ∨ x = -1 := by
  have h : m.natAbs ≤ N ∧ ((N : Int) + m) % 2 = 0 := by
    unfold checkTotalSz at hchk
    split at hchk
    · simp at hchk
    · exact ⟨by omega, by simpa using hchk⟩
  refine ⟨?_, ?_, ?_⟩
  · rw [hσ.length_eq]
    simp only [spinHalfUnshuffled, List.length_append, List.length_replicate]
    omega
  · rw [hσ.sum_eq, spinHalfUnshuffled, List.sum_append, sum_replicate_int, sum_replicate_int]
    omega
  · intro x hx
    rw [hσ.mem_iff] at hx
    simp only [spinHalfUnshuffled, List.mem_append, List.mem_replicate] at hx
    omega

/-- C07, unconstrained Spin: every draw gives valid local values. -/
theorem C07_spin_unconstrained (t : Nat) (rs : List Nat) (h : ∀ r ∈ rs, r < t + 1) :
    (spinUnconstrained t rs).length = rs.length ∧
    ∀ x ∈ spinUnconstrained t rs, ∃ k : Nat, k ≤ t ∧ x = -(t : Int) + 2 * k := by
  refine ⟨by simp [spinUnconstrained], ?_⟩
  intro x hx
  simp only [spinUnconstrained, List.mem_map] at hx
  obtain ⟨r, hr, rfl⟩ := hx
  have := h r hr
  exact ⟨r, by omega, by ring⟩

example : checkParticles 2 3 5 = true ∧ (fockConstrained 3 2 5 (fun _ _ => 0)) = .ok [2, 2, 1] := by
  decide +kernel
example : checkTotalSz 3 (-1) 3 = true ∧
    (spinConstrained 3 3 (-1) (fun k m => k % m)) = .ok [1, -1, -1] := by
  decide +kernel
example : checkTotalSz 1 2 4 = true ∧ ([1, -1, 1, 1] : List Int).Perm (spinHalfUnshuffled 4 2) := by
  decide +kernel

end Verif.RandomState
