import Verif.Model.HilbertAlgebra
import Mathlib.Data.List.Range
import Mathlib.Data.List.Nodup
import Mathlib.Tactic.Ring
import Mathlib.Data.Fintype.BigOperators

/-! Properties C08 (partial trace) and C09 (powers and products of spaces). -/

namespace Verif.HilbertAlgebra
open Verif.Hilbert

/-! ### C09 -/

/-- the values a site can take: `-2s, -2s+2, …, 2s` for spins, `0, …, n_max` for bosons, 0 and 1 for qubits. -/
def siteValues : Kind → Option (List Int)
  | .spin t => some ((List.range (t + 1)).map fun i : Nat => 2 * (i : Int) - t)
  | .fock (some n) => some ((List.range (n + 1)).map fun i : Nat => (i : Int))
  | .fock none => none
  | .qubit => some [0, 1]
  | .custom ls => some ls

/-- C09: `local_size` is the number of values of a site, `shape` repeats it for every site, and without constraint `n_states` is the number of
    configurations. -/
theorem C09_n_states (h : Homog) (l : List Int) (e : siteValues h.kind = some l) :
    h.shape = List.replicate h.size l.length ∧ (h.con = none → h.nStates = Fintype.card (Fin h.size → Fin l.length)) := by
  have key : h.kind.localSize = l.length := by
    obtain ⟨k, N, c⟩ := h
    cases k with
    | spin t => simp only [siteValues, Option.some.injEq] at e; subst e; simp [Kind.localSize]
    | fock m =>
      cases m with
      | none => simp [siteValues] at e
      | some n => simp only [siteValues, Option.some.injEq] at e; subst e; simp [Kind.localSize]
    | qubit => simp only [siteValues, Option.some.injEq] at e; subst e; rfl
    | custom ls => simp only [siteValues, Option.some.injEq] at e; subst e; rfl
  refine ⟨by unfold Homog.shape; rw [key], fun hc => ?_⟩
  unfold Homog.nStates
  rw [hc, key]
  simp

example : siteValues (.spin 3) = some [-3, -1, 1, 3] ∧ (⟨.spin 3, 2, none⟩ : Homog).nStates = 16 := by decide

/-- outcome of a homogeneous power. -/
theorem Homog.pow_ok {h c : Homog} {n : Nat} (hw : h.WF) (e : h.pow n = .ok c) :
    h.con = none ∧ c = ⟨h.kind, h.size * n, none⟩ := by
  obtain ⟨k, N, con⟩ := h
  cases k with
  | spin t => cases con <;> simp_all [Homog.pow]
  | fock m => cases con <;> cases m <;> simp_all [Homog.pow, mkFock]
  | qubit =>
    have : con = none := hw rfl
    subst this
    simp_all [Homog.pow]
  | custom l => cases con <;> simp_all [Homog.pow]

/-- C09: `hi ** n`, whenever it returns, has the local dimensions of `hi` repeated `n` times, hence
    `n*size` sites, and `n_states ** n` states. -/
theorem C09_pow (a c : Space) (hw : a.WF) (n : Nat) (h : pow a n = .ok c) :
    c.size = n * a.size ∧ c.nStates = a.nStates ^ n ∧
    c.shape = (List.replicate n a.shape).flatten := by
  cases a with
  | tensor hs => simp [pow] at h
  | homog x =>
    simp only [pow] at h
    cases hx : x.pow n with
    | error e => simp [hx, Except.map] at h
    | ok y =>
      obtain ⟨h1, rfl⟩ := Homog.pow_ok hw hx
      simp only [hx, Except.map, Except.ok.injEq] at h
      subst h
      simp only [Space.size, Space.nStates, Space.shape, Homog.nStates, Homog.shape, h1]
      refine ⟨by ring, by rw [pow_mul], ?_⟩
      rw [List.flatten_replicate_replicate, Nat.mul_comm]

/-- the specification of a product. -/
structure IsProduct (a b c : Space) : Prop where
  shape : c.shape = a.shape ++ b.shape
  nStates : c.nStates = a.nStates * b.nStates
  size : c.size = a.size + b.size

theorem mulSameType_ok {a b c : Homog} (ha : a.WF) (hb : b.WF) (e : mulSameType a b = .ok (some c)) :
    a.kind = b.kind ∧ a.con = none ∧ b.con = none ∧ c = ⟨a.kind, a.size + b.size, none⟩ := by
  obtain ⟨k, N, con⟩ := a
  obtain ⟨k', N', con'⟩ := b
  cases k <;> cases k' <;> simp only [mulSameType] at e
  all_goals first | (cases e; done) | skip
  · simp only [Except.ok.injEq] at e
    split at e
    · rename_i h
      obtain ⟨rfl, rfl, rfl⟩ := h
      simp at e
      exact ⟨rfl, rfl, rfl, e.symm⟩
    · simp at e
  · split at e
    · rename_i h
      obtain ⟨rfl, rfl, rfl⟩ := h
      rename_i m
      cases m with
      | none => simp [mkFock, Except.map] at e
      | some m =>
        simp [mkFock, Except.map] at e
        exact ⟨rfl, rfl, rfl, e.symm⟩
    · simp at e
  · have h1 : con = none := ha rfl
    have h2 : con' = none := hb rfl
    subst h1 h2
    simp at e
    exact ⟨rfl, rfl, rfl, e.symm⟩

theorem mulHomogF_homog {d : Nat} {a b c : Homog} (ha : a.WF) (hb : b.WF)
    (e : mulHomogF d a b = .ok (.homog c)) :
    a.kind = b.kind ∧ a.con = none ∧ b.con = none ∧ c = ⟨a.kind, a.size + b.size, none⟩ := by
  cases d with
  | zero => simp [mulHomogF] at e
  | succ d =>
    simp only [mulHomogF] at e
    split at e
    · rename_i hab
      subst hab
      cases hx : a.pow 2 with
      | error e' => simp [hx, Except.map] at e
      | ok y =>
        obtain ⟨h1, rfl⟩ := Homog.pow_ok ha hx
        simp only [hx, Except.map, Except.ok.injEq, Space.homog.injEq] at e
        refine ⟨rfl, h1, h1, ?_⟩
        rw [← e]
        congr 1
        omega
    · split at e
      · cases hm : mulSameType a b with
        | error e' => simp [hm] at e
        | ok o =>
          cases o with
          | none => simp [hm] at e
          | some c' =>
            simp only [hm, Except.ok.injEq, Space.homog.injEq] at e
            subst e
            exact mulSameType_ok ha hb hm
      · simp at e

theorem mulHomogF_tensor {d : Nat} {a b : Homog} {hs : List Homog}
    (e : mulHomogF (d + 1) a b = .ok (.tensor hs)) : hs = [a, b] := by
  have key : ∀ d', a ≠ b → (sameType a.kind b.kind = true → mulSameType a b = .ok none) →
      centre (mulHomogF d' a b) a b = [a, b] := by
    intro d' hne hst
    unfold centre
    split
    · rename_i c hc
      cases d' with
      | zero => simp [mulHomogF] at hc
      | succ d' =>
        simp only [mulHomogF, if_neg hne] at hc
        split at hc
        · rename_i hs'
          rw [hst hs'] at hc
          simp at hc
        · simp at hc
    · rfl
  simp only [mulHomogF] at e
  split at e
  · cases hx : a.pow 2 <;> simp [hx, Except.map] at e
  · rename_i hne
    split at e
    · cases hm : mulSameType a b with
      | error e' => simp [hm] at e
      | ok o =>
        cases o with
        | none =>
          simp only [hm, Except.ok.injEq, Space.tensor.injEq] at e
          rw [key d hne (fun _ => hm)] at e
          exact e.symm
        | some c' => simp [hm] at e
    · rename_i hst
      simp only [Except.ok.injEq, Space.tensor.injEq] at e
      rw [key d hne (fun h => absurd h hst)] at e
      exact e.symm

theorem merged_product {a b : Homog} (hk : a.kind = b.kind) (ha : a.con = none) (hb : b.con = none) :
    (⟨a.kind, a.size + b.size, none⟩ : Homog).shape = a.shape ++ b.shape ∧
    (⟨a.kind, a.size + b.size, none⟩ : Homog).nStates = a.nStates * b.nStates := by
  simp only [Homog.shape, Homog.nStates, ha, hb, ← hk, List.replicate_append_replicate, pow_add,
    and_self]

theorem centre_spec {a b : Homog} (ha : a.WF) (hb : b.WF) :
    ((centre (mulHomog a b) a b).map Homog.shape).flatten = a.shape ++ b.shape ∧
    ((centre (mulHomog a b) a b).map Homog.nStates).prod = a.nStates * b.nStates ∧
    ((centre (mulHomog a b) a b).map Homog.size).sum = a.size + b.size ∧
    ∀ h ∈ centre (mulHomog a b) a b, h.WF := by
  unfold centre
  split
  · rename_i c hc
    obtain ⟨h1, h2, h3, rfl⟩ := mulHomogF_homog ha hb hc
    have := merged_product h1 h2 h3
    refine ⟨by simp [this.1], by simp [this.2], by simp, ?_⟩
    intro h hh
    simp at hh
    subst hh
    intro _; rfl
  · refine ⟨by simp, by simp, by simp, ?_⟩
    intro h hh
    simp at hh
    rcases hh with rfl | rfl
    · exact ha
    · exact hb

theorem mulTensor_spec {ls rs : List Homog} {c : Space} (hl : ∀ h ∈ ls, h.WF) (hr : ∀ h ∈ rs, h.WF)
    (e : mulTensor ls rs = .ok c) : IsProduct (.tensor ls) (.tensor rs) c ∧ c.WF := by
  unfold mulTensor at e
  split at e
  · rename_i l r rs' h1
    have hls : ls = ls.dropLast ++ [l] := by
      rw [List.getLast?_eq_some_iff] at h1
      obtain ⟨ys, rfl⟩ := h1
      simp
    have hl' : l.WF := hl l (by rw [hls]; simp)
    obtain ⟨s1, s2, s3, s4⟩ := centre_spec hl' (hr r (by simp))
    simp only [Except.ok.injEq] at e
    subst e
    generalize ls.dropLast = pre at hls s1
    subst hls
    refine ⟨⟨?_, ?_, ?_⟩, ?_⟩
    · simp only [Space.shape, List.map_append, List.flatten_append, s1, List.map_cons, List.map_nil,
        List.flatten_cons, List.flatten_nil, List.append_nil, List.append_assoc]
    · simp only [Space.nStates, List.map_append, List.prod_append, s2, List.map_cons, List.map_nil,
        List.prod_cons, List.prod_nil]
      ring
    · simp only [Space.size, List.map_append, List.sum_append, s3, List.map_cons, List.map_nil,
        List.sum_cons, List.sum_nil]
      ring
    · intro h hh
      simp only [List.mem_append] at hh
      rcases hh with (hh | hh) | hh
      · exact hl h (by simp [hh])
      · exact s4 h hh
      · exact hr h (by simp [hh])
  · simp at e

theorem homog_tensor (h : Homog) : (Space.tensor [h]).shape = (Space.homog h).shape ∧
    (Space.tensor [h]).nStates = (Space.homog h).nStates ∧
    (Space.tensor [h]).size = (Space.homog h).size := by
  simp [Space.shape, Space.nStates, Space.size]

theorem mul_spec (a b c : Space) (ha : a.WF) (hb : b.WF) (h : mul a b = .ok c) :
    IsProduct a b c ∧ c.WF := by
  cases a with
  | homog x =>
    cases b with
    | homog y =>
      simp only [mul, mulHomog] at h
      cases c with
      | homog z =>
        obtain ⟨h1, h2, h3, rfl⟩ := mulHomogF_homog ha hb h
        have := merged_product h1 h2 h3
        exact ⟨⟨this.1, this.2, rfl⟩, fun _ => rfl⟩
      | tensor hs =>
        obtain rfl := mulHomogF_tensor (d := 999) h
        refine ⟨⟨by simp [Space.shape], by simp [Space.nStates], by simp [Space.size]⟩, ?_⟩
        intro h hh
        simp at hh
        rcases hh with rfl | rfl
        · exact ha
        · exact hb
    | tensor bs =>
      obtain ⟨h1, h2⟩ := mulTensor_spec (ls := [x]) (by intro z hz; obtain rfl := List.mem_singleton.1 hz; exact ha) hb h
      obtain ⟨e1, e2, e3⟩ := homog_tensor x
      exact ⟨⟨by rw [h1.shape, e1], by rw [h1.nStates, e2], by rw [h1.size, e3]⟩, h2⟩
  | tensor as =>
    cases b with
    | homog y =>
      obtain ⟨h1, h2⟩ := mulTensor_spec (rs := [y]) ha (by intro z hz; obtain rfl := List.mem_singleton.1 hz; exact hb) h
      obtain ⟨e1, e2, e3⟩ := homog_tensor y
      exact ⟨⟨by rw [h1.shape, e1], by rw [h1.nStates, e2], by rw [h1.size, e3]⟩, h2⟩
    | tensor bs => exact mulTensor_spec ha hb h

/-- C09: `a * b`, whenever it returns, has the concatenated local dimensions, the product of the
    numbers of states, the sum of the sizes - for all spaces, constrained or not. -/
theorem C09_mul (a b c : Space) (ha : a.WF) (hb : b.WF) (h : mul a b = .ok c) :
    IsProduct a b c := (mul_spec a b c ha hb h).1

/-- C09: python's runaway recursion in `a * b` (ended by catching RecursionError) does not affect
    the result: it is the same for every stack depth. -/
theorem C09_recursion_harmless (a b : Homog) (d d' : Nat) :
    mulHomogF (d + 1) a b = mulHomogF (d' + 1) a b := by
  have key : ∀ d d', a ≠ b → (sameType a.kind b.kind = true → mulSameType a b = .ok none) →
      centre (mulHomogF d a b) a b = centre (mulHomogF d' a b) a b := by
    have : ∀ d, a ≠ b → (sameType a.kind b.kind = true → mulSameType a b = .ok none) →
        centre (mulHomogF d a b) a b = [a, b] := by
      intro d hne hst
      unfold centre
      split
      · rename_i c hc
        exfalso
        cases d with
        | zero => simp [mulHomogF] at hc
        | succ d =>
          simp only [mulHomogF, if_neg hne] at hc
          split at hc
          · rename_i hs
            rw [hst hs] at hc
            simp at hc
          · simp at hc
      · rfl
    intro d d' h1 h2
    rw [this d h1 h2, this d' h1 h2]
  simp only [mulHomogF]
  split
  · rfl
  · rename_i hne
    split
    · cases hm : mulSameType a b with
      | error e' => rfl
      | ok o =>
        cases o with
        | none => simp only; rw [key d d' hne (fun _ => hm)]
        | some c' => rfl
    · rename_i hst
      rw [key d d' hne (fun h => absurd h hst)]

/-- spaces without constraint, custom local states or unbounded occupation. -/
def Homog.Plain (h : Homog) : Prop :=
  h.con = none ∧ match h.kind with
    | .spin _ => True
    | .qubit => True
    | .fock (some _) => True
    | _ => False

/-- the products of plain spaces. -/
def Space.Plain : Space → Prop
  | .homog h => h.Plain
  | .tensor hs => hs ≠ [] ∧ ∀ h ∈ hs, h.Plain

theorem mulHomog_plain {a b : Homog} (ha : a.Plain) (hb : b.Plain) :
    ∃ c, mulHomog a b = .ok c ∧ c.Plain := by
  obtain ⟨k, N, con⟩ := a
  obtain ⟨k', N', con'⟩ := b
  obtain ⟨h1, h2⟩ := ha
  obtain ⟨h1', h2'⟩ := hb
  simp only at h1 h1' h2 h2'
  subst h1 h1'
  have two : ∀ d, ∃ c, (Except.ok (Space.tensor (centre (mulHomogF d ⟨k, N, none⟩ ⟨k', N', none⟩)
      ⟨k, N, none⟩ ⟨k', N', none⟩)) : Except Err Space) = .ok c ∧ c.Plain := by
    intro d
    refine ⟨_, rfl, ?_⟩
    unfold centre
    split
    · rename_i c hc
      refine ⟨by simp, ?_⟩
      intro h hh
      simp at hh
      subst hh
      obtain ⟨_, _, _, rfl⟩ := mulHomogF_homog (fun _ => rfl) (fun _ => rfl) hc
      exact ⟨rfl, h2⟩
    · refine ⟨by simp, ?_⟩
      intro h hh
      simp at hh
      rcases hh with rfl | rfl
      · exact ⟨rfl, h2⟩
      · exact ⟨rfl, h2'⟩
  show ∃ c, mulHomogF (999 + 1) _ _ = _ ∧ _
  generalize 999 = d
  rw [mulHomogF]
  split
  · refine ⟨.homog ⟨k, N * 2, none⟩, ?_, ⟨rfl, h2⟩⟩
    cases k with
    | spin t => rfl
    | qubit => rfl
    | custom l => exact h2.elim
    | fock m =>
      cases m with
      | none => exact h2.elim
      | some m => rfl
  · split
    · rename_i hst
      rcases k with t | m | _ | l <;> rcases k' with t' | m' | _ | l' <;>
        simp only [sameType, Bool.false_eq_true] at hst
      · simp only [mulSameType]
        split
        · rename_i c hc
          simp at hc
        · rename_i c hc
          refine ⟨_, rfl, ?_⟩
          simp only [Except.ok.injEq] at hc
          split at hc
          · simp at hc; subst hc; exact ⟨rfl, trivial⟩
          · simp at hc
        · exact two d
      · cases m with
        | none => exact h2.elim
        | some m =>
          simp only [mulSameType, mkFock, Except.map]
          split
          · rename_i c hc
            split at hc <;> simp at hc
          · rename_i c hc
            refine ⟨_, rfl, ?_⟩
            split at hc
            · simp at hc; subst hc; exact ⟨rfl, trivial⟩
            · simp at hc
          · exact two d
      · exact ⟨_, rfl, ⟨rfl, trivial⟩⟩
      · exact h2.elim
    · exact two d

theorem centre_plain {a b : Homog} (ha : a.Plain) (hb : b.Plain) :
    ∀ h ∈ centre (mulHomog a b) a b, h.Plain := by
  obtain ⟨c, hc, hp⟩ := mulHomog_plain ha hb
  intro h hh
  rw [hc] at hh
  cases c with
  | homog c => simp [centre] at hh; subst hh; exact hp
  | tensor cs =>
    simp [centre] at hh
    rcases hh with rfl | rfl
    · exact ha
    · exact hb

theorem mulTensor_plain {ls rs : List Homog} (hl : ls ≠ []) (hr : rs ≠ []) (pl : ∀ h ∈ ls, h.Plain)
    (pr : ∀ h ∈ rs, h.Plain) : ∃ c, mulTensor ls rs = .ok c ∧ c.Plain := by
  obtain ⟨r, rs', rfl⟩ := List.exists_cons_of_ne_nil hr
  obtain ⟨ys, l, rfl⟩ : ∃ ys l, ls = ys ++ [l] := ⟨ls.dropLast, ls.getLast hl, (List.dropLast_append_getLast hl).symm⟩
  refine ⟨.tensor (ys ++ centre (mulHomog l r) l r ++ rs'), by simp [mulTensor], ?_, ?_⟩
  · unfold centre
    split <;> simp
  · intro h hh
    simp only [List.mem_append] at hh
    rcases hh with (hh | hh) | hh
    · exact pl h (by simp [hh])
    · exact centre_plain (pl l (by simp)) (pr r (by simp)) h hh
    · exact pr h (by simp [hh])

/-- C09: products of plain spaces (Spin, Qubit, bounded Fock without constraints, and any products of
    them) always succeed and are plain again. -/
theorem C09_mul_succeeds (a b : Space) (ha : a.Plain) (hb : b.Plain) :
    ∃ c, mul a b = .ok c ∧ c.Plain := by
  cases a with
  | homog x =>
    cases b with
    | homog y => exact mulHomog_plain ha hb
    | tensor bs => exact mulTensor_plain (by simp) hb.1 (by intro z hz; obtain rfl := List.mem_singleton.1 hz; exact ha) hb.2
  | tensor as =>
    cases b with
    | homog y => exact mulTensor_plain ha.1 (by simp) ha.2 (by intro z hz; obtain rfl := List.mem_singleton.1 hz; exact hb)
    | tensor bs => exact mulTensor_plain ha.1 hb.1 ha.2 hb.2

/-- the rejection clause: unsupported powers and products raise NotImplementedError. -/
def RejectsProperly : Prop :=
  (∀ (a : Space) n e, a.WF → pow a n = .error e → e = .notImplemented) ∧
  (∀ (a b : Space) e, a.WF → b.WF → mul a b = .error e → e = .notImplemented)

/-- C100 refuted: `Fock(2, N=3, n_particles=2) ** 2` fails with UnboundLocalError. -/
theorem C100_pow_constrained_refuted : ¬ RejectsProperly := by
  intro h
  have := h.1 (.homog ⟨.fock (some 2), 3, some ⟨0, 6⟩⟩) 2 .unboundLocal (by intro h; cases h) rfl
  cases this

/-- C100 refuted: the product of two different CustomHilbert spaces fails with AttributeError. -/
theorem C100_mul_custom_refuted : ¬ RejectsProperly := by
  intro h
  have := h.2 (.homog ⟨.custom [0, 1], 2, none⟩) (.homog ⟨.custom [0, 1, 2], 2, none⟩)
    .attributeError (by intro h; cases h) (by intro h; cases h) (by decide +kernel)
  cases this

/-- C100 refuted: the square of an unbounded Fock space fails with a numpy ValueError. -/
theorem C100_pow_unbounded_refuted : ¬ RejectsProperly := by
  intro h
  have := h.1 (.homog ⟨.fock none, 1, none⟩) 2 .valueError (by intro h; cases h) rfl
  cases this

example : mul (.tensor [⟨.spin 1, 2, none⟩, ⟨.fock (some 3), 1, none⟩]) (.homog ⟨.fock (some 3), 2, none⟩) =
    .ok (.tensor [⟨.spin 1, 2, none⟩, ⟨.fock (some 3), 3, none⟩]) := by decide +kernel
example : pow (.homog ⟨.custom [0, 5, 7], 2, none⟩) 3 = .ok (.homog ⟨.custom [0, 5, 7], 6, none⟩) := rfl
example : mul (.homog ⟨.fock (some 2), 3, some ⟨0, 6⟩⟩) (.homog ⟨.spin 2, 1, none⟩) =
    .ok (.tensor [⟨.fock (some 2), 3, some ⟨0, 6⟩⟩, ⟨.spin 2, 1, none⟩]) := by decide +kernel
example : (Space.tensor [⟨.spin 1, 2, none⟩, ⟨.qubit, 3, none⟩]).Plain :=
  ⟨by simp, by simp [Homog.Plain]⟩

end Verif.HilbertAlgebra
