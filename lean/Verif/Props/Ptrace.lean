import Verif.Props.HilbertAlgebra
import Mathlib.Data.List.Perm.Subperm
import Mathlib.Data.List.Perm.Lattice
import Mathlib.Tactic.Linarith

/-! Property C08: the partial trace keeps exactly the other sites. -/

namespace Verif.HilbertAlgebra
open Verif.Hilbert

/-! ### Specification -/

/-- the entries of `l` whose position (counted from `off`) is not in `sites`, in order. -/
def keepFrom {β : Type} (sites : List Nat) : Nat → List β → List β
  | _, [] => []
  | off, x :: xs => if off ∈ sites then keepFrom sites (off + 1) xs else x :: keepFrom sites (off + 1) xs

/-- the specification: the result has the local dimensions of the kept sites, `None` means no site is
    kept. -/
def IsPtrace (a : Space) (sites : List Nat) : Option Space → Prop
  | none => keepFrom sites 0 a.shape = []
  | some c => c.shape = keepFrom sites 0 a.shape ∧ c.size + sites.length = a.size

/-! ### Lemmas -/

theorem keepFrom_append {β : Type} (sites : List Nat) (off : Nat) (a b : List β) :
    keepFrom sites off (a ++ b) = keepFrom sites off a ++ keepFrom sites (off + a.length) b := by
  induction a generalizing off with
  | nil => simp [keepFrom]
  | cons x a ih =>
    simp only [List.cons_append, keepFrom, ih, List.length_cons]
    rw [show off + 1 + a.length = off + (a.length + 1) by omega]
    split <;> simp

/-- number of listed sites in a window, for distinct sites. -/
theorem filter_window_succ (sites : List Nat) (hn : sites.Nodup) (off n : Nat) :
    (sites.filter fun s => decide (off ≤ s) && decide (s < off + (n + 1))).length =
      (if off ∈ sites then 1 else 0) +
      (sites.filter fun s => decide (off + 1 ≤ s) && decide (s < off + 1 + n)).length := by
  induction sites with
  | nil => simp
  | cons s sites ih =>
    have ih := ih hn.of_cons
    have hs : s ∉ sites := (List.nodup_cons.1 hn).1
    simp only [List.filter_cons, List.mem_cons]
    by_cases h1 : off = s
    · subst h1
      have e1 : (decide (off ≤ off) && decide (off < off + (n + 1))) = true := by simp
      have e2 : (decide (off + 1 ≤ off) && decide (off < off + 1 + n)) = false := by simp
      rw [e1, e2]
      simp only [if_true, Bool.false_eq_true, if_false, List.length_cons, true_or]
      rw [ih, if_neg hs]
      omega
    · have e : (decide (off ≤ s) && decide (s < off + (n + 1))) =
          (decide (off + 1 ≤ s) && decide (s < off + 1 + n)) := by
        rw [Bool.eq_iff_iff]; simp; omega
      rw [e]
      have e3 : (off = s ∨ off ∈ sites) ↔ off ∈ sites := by simp [h1]
      simp only [e3]
      split
      · simp only [List.length_cons]; rw [ih]; omega
      · exact ih

theorem keepFrom_replicate (sites : List Nat) (hn : sites.Nodup) (off n d : Nat) :
    keepFrom sites off (List.replicate n d) =
      List.replicate (n - (sites.filter fun s => decide (off ≤ s) && decide (s < off + n)).length) d := by
  have hle : ∀ off n, (sites.filter fun s => decide (off ≤ s) && decide (s < off + n)).length ≤ n := by
    intro off n
    induction n generalizing off with
    | zero =>
      have : sites.filter (fun s => decide (off ≤ s) && decide (s < off + 0)) = [] := by
        rw [List.filter_eq_nil_iff]
        intro a _
        simp
      rw [this]; simp
    | succ n ih =>
      rw [filter_window_succ sites hn]
      have := ih (off + 1)
      split <;> omega
  induction n generalizing off with
  | zero => simp [keepFrom]
  | succ n ih =>
    simp only [List.replicate_succ, keepFrom, ih]
    rw [filter_window_succ sites hn]
    have := hle (off + 1) n
    split
    · congr 1; omega
    · rw [← List.replicate_succ]; congr 1; omega

theorem Homog.shape_length (h : Homog) : h.shape.length = h.size := by simp [Homog.shape]

theorem Space.shape_length (a : Space) : a.shape.length = a.size := by
  cases a with
  | homog h => exact h.shape_length
  | tensor hs =>
    simp only [Space.shape, Space.size, List.length_flatten, List.map_map]
    congr 1
    apply List.map_congr_left
    intro h _
    exact h.shape_length

/-- sites all inside a window of the homogeneous factor. -/
theorem ptraceHomog_ok {h : Homog} {sites : List Nat} {r : Option Homog}
    (e : ptraceHomog h sites = .ok r) :
    (∀ s ∈ sites, s < h.size) ∧ h.con = none ∧
    match r with
    | none => h.size = sites.length
    | some c => c = ⟨h.kind, h.size - sites.length, none⟩ := by
  unfold ptraceHomog at e
  split at e
  · simp at e
  · split at e
    · simp at e
    · rename_i h1
      split at e
      · simp at e
      · rename_i h2
        have hs : ∀ s ∈ sites, s < h.size := by
          intro s hs
          by_contra hc
          exact h1 (List.any_eq_true.2 ⟨s, hs, by simpa using hc⟩)
        have hcon : h.con = none := by simpa using h2
        refine ⟨hs, hcon, ?_⟩
        split at e
        · rename_i h3
          simp only [Except.ok.injEq] at e
          subst e
          show h.size = sites.length
          omega
        · split at e
          · rename_i m hk
            cases m with
            | none => simp [mkFock, Except.map] at e
            | some m =>
              simp [mkFock, Except.map] at e
              subst e
              simp [hk]
          · simp only [Except.ok.injEq] at e
            subst e
            rfl

theorem ptraceFactors_ok {hs : List Homog} (hw : ∀ h ∈ hs, h.WF) {off : Nat} {sites : List Nat}
    (hn : sites.Nodup) {r : List Homog} (e : ptraceFactors hs off sites = .ok r) :
    (r.map Homog.shape).flatten = keepFrom sites off (hs.map Homog.shape).flatten ∧
    ∀ h ∈ r, h.WF := by
  induction hs generalizing off r with
  | nil =>
    simp only [ptraceFactors, Except.ok.injEq] at e
    subst e
    simp [keepFrom]
  | cons h hs ih =>
    simp only [ptraceFactors] at e
    have hw' := hw h List.mem_cons_self
    -- the window of this factor
    have hwin : ((sites.filter fun s => decide (off ≤ s) && decide (s < off + h.size)).map (· - off)).length =
        (sites.filter fun s => decide (off ≤ s) && decide (s < off + h.size)).length := List.length_map _
    generalize hhere : (sites.filter fun s => decide (off ≤ s) && decide (s < off + h.size)).map (· - off)
      = here at e hwin
    -- first part
    have first : ∀ (fst : List Homog),
        ptraceFactor h here = Except.ok fst →
        (fst.map Homog.shape).flatten = keepFrom sites off h.shape ∧ ∀ x ∈ fst, x.WF := by
      intro fst hf
      unfold ptraceFactor at hf
      split at hf
      · rename_i h0
        simp only [Except.ok.injEq] at hf
        subst hf
        refine ⟨?_, ?_⟩
        · rw [Homog.shape, keepFrom_replicate sites hn, ← hwin, h0]
          simp [Homog.shape]
        · intro x hx
          simp at hx
          subst hx
          exact hw'
      · cases hp : ptraceHomog h here with
        | error e' => simp [hp] at hf
        | ok o =>
          obtain ⟨p1, p2, p3⟩ := ptraceHomog_ok hp
          cases o with
          | none =>
            simp only [hp, Except.ok.injEq] at hf
            subst hf
            refine ⟨?_, by simp⟩
            rw [Homog.shape, keepFrom_replicate sites hn, ← hwin]
            simp only at p3
            simp [p3]
          | some c =>
            simp only [hp, Except.ok.injEq] at hf
            subst hf
            simp only at p3
            refine ⟨?_, ?_⟩
            · rw [Homog.shape, keepFrom_replicate sites hn, ← hwin]
              simp [p3, Homog.shape]
            · intro x hx
              simp at hx
              subst hx
              rw [p3]
              intro _; rfl
    generalize hfe : ptraceFactor h here = F at e first
    cases F with
    | error e' => simp [bind, Except.bind] at e
    | ok fst =>
      obtain ⟨f1, f2⟩ := first fst rfl
      simp only [bind, Except.bind] at e
      cases hr : ptraceFactors hs (off + h.size) sites with
      | error e' => simp [hr] at e
      | ok rest =>
        obtain ⟨r1, r2⟩ := ih (fun x hx => hw x (List.mem_cons_of_mem _ hx)) hr
        simp only [hr, pure, Except.pure, Except.ok.injEq] at e
        subst e
        refine ⟨?_, ?_⟩
        · simp only [List.map_append, List.flatten_append, List.map_cons, List.flatten_cons,
            keepFrom_append, f1, r1, h.shape_length]
        · intro x hx
          simp only [List.mem_append] at hx
          rcases hx with hx | hx
          · exact f2 x hx
          · exact r2 x hx

theorem prodLeft_ok {hs : List Homog} {acc c : Space} (ha : acc.WF) (hw : ∀ h ∈ hs, h.WF)
    (e : prodLeft acc hs = .ok c) : c.shape = acc.shape ++ (hs.map Homog.shape).flatten := by
  induction hs generalizing acc with
  | nil =>
    simp only [prodLeft, Except.ok.injEq] at e
    subst e
    simp
  | cons h hs ih =>
    simp only [prodLeft] at e
    cases hm : mul acc (.homog h) with
    | error e' => simp [hm, bind, Except.bind] at e
    | ok acc' =>
      simp only [hm, bind, Except.bind] at e
      obtain ⟨p1, p2⟩ := mul_spec acc (.homog h) acc' ha (hw h List.mem_cons_self) hm
      rw [ih p2 (fun x hx => hw x (List.mem_cons_of_mem _ hx)) e, p1.shape]
      simp [Space.shape]

theorem filter_all (sites : List Nat) (n : Nat) (h : ∀ s ∈ sites, s < n) :
    (sites.filter fun s => decide (0 ≤ s) && decide (s < 0 + n)) = sites := by
  rw [List.filter_eq_self]
  intro a ha
  have := h a ha
  simp; omega

theorem keepFrom_length {β : Type} (sites : List Nat) (hn : sites.Nodup) (l : List β)
    (h : ∀ s ∈ sites, s < l.length) : (keepFrom sites 0 l).length + sites.length = l.length := by
  have hlen : ∀ (l : List β) (l' : List Nat) off, l.length = l'.length →
      (keepFrom sites off l).length = (keepFrom sites off l').length := by
    intro l
    induction l with
    | nil => intro l' off hl; cases l' with
      | nil => rfl
      | cons _ _ => simp at hl
    | cons x l ih =>
      intro l' off hl
      cases l' with
      | nil => simp at hl
      | cons y l' =>
        simp only [keepFrom]
        have := ih l' (off + 1) (by simpa using hl)
        split <;> simp [this]
  rw [hlen l (List.replicate l.length 0) 0 (by simp), keepFrom_replicate sites hn, filter_all sites _ h,
    List.length_replicate]
  have hsub : sites.length ≤ l.length := by
    have : sites ⊆ List.range l.length := fun s hs => by simpa using h s hs
    simpa using (hn.subperm this).length_le
  omega

/-- C08: whenever `ptrace` with distinct sites returns, it returns the space of the kept sites, in
    order (for every space: homogeneous, or product of any factors). -/
theorem C08_ptrace (a : Space) (hw : a.WF) (sites : List Nat) (hn : sites.Nodup)
    (r : Option Space) (e : ptrace a sites = .ok r) : IsPtrace a sites r := by
  have finish : ∀ c : Space, c.shape = keepFrom sites 0 a.shape → (∀ s ∈ sites, s < a.size) →
      IsPtrace a sites (some c) := by
    intro c hc hs
    refine ⟨hc, ?_⟩
    have := keepFrom_length sites hn a.shape (by rwa [a.shape_length])
    rw [← hc, c.shape_length, a.shape_length] at this
    exact this
  cases a with
  | homog h =>
    simp only [ptrace] at e
    cases hp : ptraceHomog h sites with
    | error e' => simp [hp, Except.map] at e
    | ok o =>
      obtain ⟨p1, p2, p3⟩ := ptraceHomog_ok hp
      simp only [hp, Except.map, Except.ok.injEq] at e
      subst e
      have hk : keepFrom sites 0 (Space.homog h).shape =
          List.replicate (h.size - sites.length) h.kind.localSize := by
        simp only [Space.shape, Homog.shape]
        rw [keepFrom_replicate sites hn, filter_all sites _ p1]
      cases o with
      | none =>
        simp only at p3
        simp only [Option.map_none, IsPtrace]
        rw [hk, p3]
        simp
      | some c =>
        simp only at p3
        refine finish (.homog c) ?_ p1
        rw [hk, p3]
        rfl
  | tensor hs =>
    simp only [ptrace] at e
    split at e
    · simp at e
    · rename_i h1
      have hs' : ∀ s ∈ sites, s < (Space.tensor hs).size := by
        intro s hs
        by_contra hc
        exact h1 (List.any_eq_true.2 ⟨s, hs, by simpa using hc⟩)
      split at e
      · rename_i h2
        simp only [Except.ok.injEq] at e
        subst e
        have := keepFrom_length sites hn (Space.tensor hs).shape (by rwa [Space.shape_length])
        rw [Space.shape_length] at this
        exact List.eq_nil_of_length_eq_zero (by omega)
      · cases hf : ptraceFactors hs 0 sites with
        | error e' => simp [hf, bind, Except.bind] at e
        | ok fs =>
          obtain ⟨f1, f2⟩ := ptraceFactors_ok hw hn hf
          cases fs with
          | nil =>
            simp only [hf, bind, Except.bind, Except.ok.injEq] at e
            subst e
            exact f1.symm
          | cons h rest =>
            simp only [hf, bind, Except.bind] at e
            cases hq : prodLeft (.homog h) rest with
            | error e' => simp [hq] at e
            | ok c =>
              simp only [hq, pure, Except.pure, Except.ok.injEq] at e
              subst e
              refine finish c ?_ hs'
              rw [prodLeft_ok (acc := .homog h) (f2 h List.mem_cons_self) (fun x hx => f2 x (List.mem_cons_of_mem _ hx)) hq,
                ← show _ = keepFrom sites 0 (Space.tensor hs).shape from f1]
              simp [Space.shape]

/-! success on plain spaces -/

theorem ptraceHomog_plain {h : Homog} (hp : h.Plain) {sites : List Nat} (hs : ∀ s ∈ sites, s < h.size) :
    ∃ r, ptraceHomog h sites = .ok r ∧ ∀ c, r = some c → c.Plain := by
  obtain ⟨k, N, con⟩ := h
  obtain ⟨h1, h2⟩ := hp
  simp only at h1 h2 hs
  subst h1
  have h0 : (sites.any fun s => decide (N ≤ s)) = false := by
    rw [List.any_eq_false]
    intro s hs'
    have := hs s hs'
    simp; omega
  rcases k with t | m | _ | l
  · simp only [ptraceHomog, h0]
    by_cases hc : (N : Int) - sites.length = 0
    · simp [hc]
    · simp [hc, Homog.Plain]
  · cases m with
    | none => exact h2.elim
    | some m =>
      simp only [ptraceHomog, h0]
      by_cases hc : (N : Int) - sites.length = 0
      · simp [hc]
      · simp [hc, Homog.Plain, mkFock, Except.map]
  · simp only [ptraceHomog, h0]
    by_cases hc : (N : Int) - sites.length = 0
    · simp [hc]
    · simp [hc, Homog.Plain]
  · exact h2.elim

theorem ptraceFactors_plain (hs : List Homog) (hp : ∀ h ∈ hs, h.Plain) (off : Nat) (sites : List Nat) :
    ∃ r, ptraceFactors hs off sites = .ok r ∧ ∀ c ∈ r, c.Plain := by
  induction hs generalizing off with
  | nil => exact ⟨[], rfl, by simp⟩
  | cons h hs ih =>
    obtain ⟨rest, r1, r2⟩ := ih (fun x hx => hp x (List.mem_cons_of_mem _ hx)) (off + h.size)
    have hh := hp h List.mem_cons_self
    simp only [ptraceFactors, ptraceFactor]
    generalize hhere : (sites.filter fun s => decide (off ≤ s) && decide (s < off + h.size)).map (· - off)
      = here
    have hin : ∀ s ∈ here, s < h.size := by
      intro s hs'
      rw [← hhere] at hs'
      simp only [List.mem_map, List.mem_filter, Bool.and_eq_true, decide_eq_true_eq] at hs'
      obtain ⟨x, ⟨_, h1, h2⟩, rfl⟩ := hs'
      omega
    by_cases h0 : here.length = 0
    · simp only [h0, if_true, bind, Except.bind, r1, pure, Except.pure]
      refine ⟨_, rfl, ?_⟩
      intro c hc
      simp at hc
      rcases hc with rfl | hc
      · exact hh
      · exact r2 c hc
    · obtain ⟨o, o1, o2⟩ := ptraceHomog_plain hh hin
      simp only [if_neg h0, bind, Except.bind, o1, r1, pure, Except.pure]
      cases o with
      | none =>
        refine ⟨_, rfl, ?_⟩
        intro c hc
        simp at hc
        exact r2 c hc
      | some c' =>
        refine ⟨_, rfl, ?_⟩
        intro c hc
        simp at hc
        rcases hc with rfl | hc
        · exact o2 _ rfl
        · exact r2 c hc

theorem prodLeft_plain (hs : List Homog) (hp : ∀ h ∈ hs, h.Plain) (acc : Space) (ha : acc.Plain) :
    ∃ c, prodLeft acc hs = .ok c := by
  induction hs generalizing acc with
  | nil => exact ⟨acc, rfl⟩
  | cons h hs ih =>
    obtain ⟨c, c1, c2⟩ := C09_mul_succeeds acc (.homog h) ha (hp h List.mem_cons_self)
    simp only [prodLeft, c1, bind, Except.bind]
    exact ih (fun x hx => hp x (List.mem_cons_of_mem _ hx)) c c2

/-- C08: on plain spaces (no constraints, no custom or unbounded factors) `ptrace` returns for every
    list of sites of the space. -/
theorem C08_ptrace_succeeds (a : Space) (ha : a.Plain) (sites : List Nat)
    (hs : ∀ s ∈ sites, s < a.size) : ∃ r, ptrace a sites = .ok r := by
  cases a with
  | homog h =>
    obtain ⟨o, o1, _⟩ := ptraceHomog_plain ha hs
    exact ⟨o.map .homog, by simp [ptrace, o1, Except.map]⟩
  | tensor fs =>
    have h0 : (sites.any fun s => decide ((Space.tensor fs).size ≤ s)) = false := by
      rw [List.any_eq_false]
      intro s hs'
      have := hs s hs'
      simp; omega
    simp only [ptrace, h0]
    by_cases hc : ((Space.tensor fs).size : Int) - sites.length = 0
    · exact ⟨none, by simp [hc]⟩
    · obtain ⟨r, r1, r2⟩ := ptraceFactors_plain fs ha.2 0 sites
      simp only [Bool.false_eq_true, if_false, if_neg hc, r1, bind, Except.bind]
      cases r with
      | nil => exact ⟨none, rfl⟩
      | cons h rest =>
        obtain ⟨c, c1⟩ := prodLeft_plain rest (fun x hx => r2 x (List.mem_cons_of_mem _ hx)) (.homog h)
          (r2 h List.mem_cons_self)
        exact ⟨some c, by simp [c1, pure, Except.pure]⟩

/-- C08: sites outside the space are rejected, for every space that supports the operation. -/
theorem C08_ptrace_rejects (a : Space) (ha : a.Plain) (sites : List Nat) (s : Nat) (hs : s ∈ sites)
    (hb : a.size ≤ s) : ptrace a sites = .error .valueError := by
  have hany : ∀ n, n ≤ s → (sites.any fun s => decide (n ≤ s)) = true := fun n hn =>
    List.any_eq_true.2 ⟨s, hs, by simpa using hn⟩
  cases a with
  | homog h =>
    obtain ⟨k, N, con⟩ := h
    obtain ⟨h1, h2⟩ := ha
    rcases k with t | m | _ | l
    · simp [ptrace, ptraceHomog, hany N hb, Except.map]
    · simp [ptrace, ptraceHomog, hany N hb, Except.map]
    · simp [ptrace, ptraceHomog, hany N hb, Except.map]
    · exact h2.elim
  | tensor fs => simp [ptrace, hany _ hb]

/-- C100 refuted for repeated sites: tracing `[0, 0]` out of two spins returns `None` although site 1
    is kept. -/
theorem C100_duplicate_sites_refuted :
    ¬ ∀ (a : Space) (sites : List Nat) (r : Option Space), a.WF → ptrace a sites = .ok r →
      (match r with
       | none => keepFrom sites 0 a.shape = []
       | some c => c.shape = keepFrom sites 0 a.shape) := by
  intro H
  have := H (.homog ⟨.spin 1, 2, none⟩) [0, 0] none (by intro h; cases h) (by decide +kernel)
  revert this
  decide +kernel

example : ptrace (.tensor [⟨.spin 1, 2, none⟩, ⟨.fock (some 3), 1, none⟩, ⟨.spin 1, 2, none⟩]) [2, 3] =
    .ok (some (.homog ⟨.spin 1, 3, none⟩)) := by decide +kernel
example : keepFrom [2, 3] 0 [2, 2, 4, 2, 2] = [2, 2, 2] := by decide +kernel

end Verif.HilbertAlgebra
