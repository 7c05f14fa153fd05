import Verif.Spec.PointGroups
import Mathlib.Tactic.LinearCombination
import Mathlib.Tactic.NormNum
import Mathlib.Tactic.Linarith
import Mathlib.Tactic.FieldSimp

/-! Lemmas on lists of linear maps for the point-group constructors. -/

set_option linter.unusedSectionVars false

namespace Verif.PGrp
open Verif.Hilbert (Err)
open Matrix

section
variable {d : Nat}

/-- a set of orthogonal matrices closed under products and transposition, with the unit matrix. -/
structure IsGrp (P : Matrix (Fin d) (Fin d) ℝ → Prop) : Prop where
  orth : ∀ W, P W → Wᵀ * W = 1
  one : P 1
  mul : ∀ W V, P W → P V → P (W * V)
  tr : ∀ W, P W → P Wᵀ

/-- the list has the matrices with `P`, each once. -/
def Enum (Ws : List (Matrix (Fin d) (Fin d) ℝ)) (P : Matrix (Fin d) (Fin d) ℝ → Prop) : Prop := Ws.Nodup ∧ ∀ W, W ∈ Ws ↔ P W

/-- linear elements. -/
def Lin (e : PGElem ℝ d) (W : Matrix (Fin d) (Fin d) ℝ) : Prop := Good e ∧ ∀ x, e.act x = some (W *ᵥ x)

theorem sum_eq_mulVec (W : Matrix (Fin d) (Fin d) ℝ) (x : Fin d → ℝ) : (fun i => ∑ j, W i j * x j) = W *ᵥ x := by
  ext i; simp [Matrix.mulVec, dotProduct]

theorem actsAs_iff (es : List (PGElem ℝ d)) (Ws : List (Matrix (Fin d) (Fin d) ℝ)) : ActsAs es Ws ↔ List.Forall₂ Lin es Ws := by
  unfold ActsAs Lin
  simp only [sum_eq_mulVec]

theorem lin_id : Lin (PGElem.id : PGElem ℝ d) 1 := ⟨trivial, fun x => by simp [PGElem.act]⟩

theorem mkPG_none (W : Matrix (Fin d) (Fin d) ℝ) (h : Wᵀ * W = 1) : mkPG W none = .ok ⟨block W 0⟩ := by
  unfold mkPG; rw [if_pos h]; rfl

theorem lin_sym (W : Matrix (Fin d) (Fin d) ℝ) (h : Wᵀ * W = 1) : Lin (PGElem.sym ⟨block W 0⟩) W :=
  ⟨⟨W, none, mkPG_none W h⟩, fun x => by simp [PGElem.act, act_block]⟩

theorem lin_orth (e : PGElem ℝ d) (W : Matrix (Fin d) (Fin d) ℝ) (h : Lin e W) : Wᵀ * W = 1 := by
  obtain ⟨V, v, ho, _, hx⟩ := good_rep e h.1
  have h0 : v = 0 := by
    have := hx 0
    rw [h.2 0] at this
    simpa using this.symm
  have : W = V := by
    apply Matrix.ext_of_mulVec_single
    intro i
    have := hx (Pi.single i 1)
    rw [h.2, h0, add_zero, Option.some.injEq] at this
    exact this
  rw [this]; exact ho

theorem lin_prod (a b : PGElem ℝ d) (W V : Matrix (Fin d) (Fin d) ℝ) (ha : Lin a W) (hb : Lin b V) :
    ∃ c, elemProd a b = .ok c ∧ Lin c (W * V) := by
  obtain ⟨c, h1, h2, h3⟩ := C42_elements a b ha.1 hb.1
  refine ⟨c, h1, h2, fun x => ?_⟩
  have := h3 x
  rw [hb.2, Option.bind_some, ha.2, Matrix.mulVec_mulVec] at this
  exact this

theorem collect_ok {α β γ : Type} (f : α → Except Err β) (R : β → γ → Prop) (as : List α) (g : α → γ)
    (h : ∀ a ∈ as, ∃ b, f a = .ok b ∧ R b (g a)) : ∃ bs, collect f as = .ok bs ∧ List.Forall₂ R bs (as.map g) := by
  induction as with
  | nil => exact ⟨[], rfl, List.Forall₂.nil⟩
  | cons a as ih =>
    obtain ⟨b, h1, h2⟩ := h a (by simp)
    obtain ⟨bs, h3, h4⟩ := ih fun x hx => h x (List.mem_cons_of_mem _ hx)
    exact ⟨b :: bs, by simp [collect, h1, h3], List.Forall₂.cons h2 h4⟩

theorem collect_pairs_of {γ : Type} (R : PGElem ℝ d → γ → Prop) (op : γ → γ → γ)
    (hop : ∀ a b s t, R a s → R b t → ∃ c, elemProd a b = .ok c ∧ R c (op s t))
    (as bs : List (PGElem ℝ d)) (Ws Vs : List γ) (ha : List.Forall₂ R as Ws) (hb : List.Forall₂ R bs Vs) :
    ∃ cs, collect (fun p : PGElem ℝ d × PGElem ℝ d => elemProd p.1 p.2) (pairs as bs) = .ok cs ∧
      List.Forall₂ R cs (Ws.flatMap fun W => Vs.map fun V => op W V) := by
  have app : ∀ (ps qs : List (PGElem ℝ d × PGElem ℝ d)) cs ds,
      collect (fun p : PGElem ℝ d × PGElem ℝ d => elemProd p.1 p.2) ps = .ok cs →
      collect (fun p : PGElem ℝ d × PGElem ℝ d => elemProd p.1 p.2) qs = .ok ds →
      collect (fun p : PGElem ℝ d × PGElem ℝ d => elemProd p.1 p.2) (ps ++ qs) = .ok (cs ++ ds) := by
    intro ps
    induction ps with
    | nil =>
      intro qs cs ds h1 h2
      simp only [collect, Except.ok.injEq] at h1
      subst h1
      simpa using h2
    | cons p ps ih =>
      intro qs cs ds h1 h2
      simp only [collect, List.cons_append] at h1 ⊢
      cases hp : elemProd p.1 p.2 with
      | error e => simp [hp] at h1
      | ok c =>
        simp only [hp] at h1 ⊢
        cases hr : collect (fun p : PGElem ℝ d × PGElem ℝ d => elemProd p.1 p.2) ps with
        | error e => simp [hr] at h1
        | ok cs' =>
          simp only [hr, Except.ok.injEq] at h1
          subst h1
          rw [ih qs cs' ds hr h2]
          rfl
  induction ha with
  | nil => exact ⟨[], rfl, List.Forall₂.nil⟩
  | @cons a W as Ws h1 _ ih =>
    obtain ⟨cs, h2, h3⟩ := ih
    have : ∃ ds, collect (fun p : PGElem ℝ d × PGElem ℝ d => elemProd p.1 p.2) (bs.map fun b => (a, b)) = .ok ds ∧
        List.Forall₂ R ds (Vs.map fun V => op W V) := by
      clear h2 h3
      induction hb with
      | nil => exact ⟨[], rfl, List.Forall₂.nil⟩
      | @cons b V bs Vs h4 _ ih' =>
        obtain ⟨ds, h5, h6⟩ := ih'
        obtain ⟨c, h7, h8⟩ := hop a b W V h1 h4
        exact ⟨c :: ds, by simp [collect, h7, h5], List.Forall₂.cons h8 h6⟩
    obtain ⟨ds, h4, h5⟩ := this
    refine ⟨ds ++ cs, ?_, ?_⟩
    · simp only [pairs, List.flatMap_cons]
      exact app _ _ _ _ h4 h2
    · rw [List.flatMap_cons]
      exact List.rel_append h5 h3

theorem collect_pairs (as bs : List (PGElem ℝ d)) (Ws Vs : List (Matrix (Fin d) (Fin d) ℝ)) (ha : List.Forall₂ Lin as Ws)
    (hb : List.Forall₂ Lin bs Vs) :
    ∃ cs, collect (fun p : PGElem ℝ d × PGElem ℝ d => elemProd p.1 p.2) (pairs as bs) = .ok cs ∧
      List.Forall₂ Lin cs (Ws.flatMap fun W => Vs.map fun V => W * V) :=
  collect_pairs_of Lin (fun W V => W * V) lin_prod as bs Ws Vs ha hb

/-- lists of linear maps which enumerate a group have a product table. -/
theorem table_exists (es : List (PGElem ℝ d)) (Ws : List (Matrix (Fin d) (Fin d) ℝ)) (P : Matrix (Fin d) (Fin d) ℝ → Prop)
    (hl : List.Forall₂ Lin es Ws) (hw : ∀ W, W ∈ Ws ↔ P W) (hP : IsGrp P) (κ : Type) [DecidableEq κ]
    (canon : Matrix (Fin d ⊕ Unit) (Fin d ⊕ Unit) ℝ → κ) (hc : Faithful canon ⊥) : ∃ T, productTable canon es = .ok T := by
  have get : ∀ e ∈ es, ∃ W, P W ∧ Lin e W := by
    intro e he
    obtain ⟨i, hi, rfl⟩ := List.mem_iff_getElem.1 he
    have hi' : i < Ws.length := by rw [← hl.length_eq]; exact hi
    exact ⟨Ws[i], (hw _).1 (List.getElem_mem hi'), List.Forall₂.get hl hi hi'⟩
  have back : ∀ W, P W → ∃ e ∈ es, Lin e W := by
    intro W hW
    obtain ⟨i, hi, rfl⟩ := List.mem_iff_getElem.1 ((hw W).2 hW)
    have hi' : i < es.length := by rw [hl.length_eq]; exact hi
    exact ⟨es[i], List.getElem_mem hi', List.Forall₂.get hl hi' hi⟩
  refine C42_closed hc es (fun e he => (get e he).choose_spec.2.1) ?_ ?_
  · intro e he
    obtain ⟨W, hW, h⟩ := get e he
    obtain ⟨e', he', h'⟩ := back _ (hP.tr W hW)
    refine ⟨e', he', 0, AddSubgroup.zero_mem _, fun x => ?_⟩
    rw [h.2, Option.bind_some, h'.2, Matrix.mulVec_mulVec, hP.orth W hW, Matrix.one_mulVec, add_zero]
  · intro a ha b hb
    obtain ⟨W, hW, h⟩ := get a ha
    obtain ⟨V, hV, h'⟩ := get b hb
    obtain ⟨c, hc', h''⟩ := back _ (hP.mul W V hW hV)
    refine ⟨c, hc', 0, AddSubgroup.zero_mem _, fun x y hy => ?_⟩
    rw [h'.2, Option.bind_some, h.2, Option.some.injEq, Matrix.mulVec_mulVec] at hy
    rw [h''.2, ← hy, add_zero]

/-- what the constructors return, before the groups are known to be groups. -/
def Pre (r : Except Err (PG d)) (Ws : List (Matrix (Fin d) (Fin d) ℝ)) : Prop :=
  ∃ es, r = .ok ⟨.id :: es, none⟩ ∧ List.Forall₂ Lin (.id :: es) Ws

theorem implements_of (r : Except Err (PG d)) (Ws : List (Matrix (Fin d) (Fin d) ℝ)) (P : Matrix (Fin d) (Fin d) ℝ → Prop) (k : Nat)
    (h1 : Pre r Ws) (h2 : Enum Ws P) (h3 : IsGrp P) (h4 : Ws.length = k) : Implements r P k := by
  obtain ⟨es, h5, h6⟩ := h1
  exact ⟨_, Ws, h5, rfl, rfl, (actsAs_iff _ _).2 h6, h2.1, h4, h2.2, fun κ _ canon hc => table_exists _ Ws P h6 h2.2 h3 κ canon hc⟩

theorem pre_pair (W : Matrix (Fin d) (Fin d) ℝ) (h : Wᵀ * W = 1) : Pre (pairGroup (mkPG W none)) [1, W] := by
  rw [mkPG_none W h]
  exact ⟨[.sym ⟨block W 0⟩], rfl, .cons lin_id (.cons (lin_sym W h) .nil)⟩

theorem pre_idAnd {α : Type} (f : α → Except Err (PGElem ℝ d)) (as : List α) (g : α → Matrix (Fin d) (Fin d) ℝ)
    (h : ∀ a ∈ as, f a = .ok (.sym ⟨block (g a) 0⟩)) (ho : ∀ a ∈ as, (g a)ᵀ * g a = 1) :
    Pre (idAnd (collect f as)) (1 :: as.map g) := by
  obtain ⟨bs, h1, h2⟩ := collect_ok f Lin as g fun a ha => ⟨_, h a ha, lin_sym _ (ho a ha)⟩
  exact ⟨bs, by rw [h1]; rfl, .cons lin_id h2⟩

theorem pre_prod (A B : Except Err (PG d)) (Ws Vs : List (Matrix (Fin d) (Fin d) ℝ)) (hA : Pre A Ws) (hB : Pre B Vs) :
    Pre (prodOf A B) (Ws.flatMap fun W => Vs.map fun V => W * V) := by
  obtain ⟨as, rfl, ha⟩ := hA
  obtain ⟨bs, rfl, hb⟩ := hB
  obtain ⟨cs, h1, h2⟩ := collect_pairs _ _ _ _ ha hb
  simp only [prodOf, PG.prod, prodCell]
  rw [h1]
  have : ∃ cs', cs = .id :: cs' := by
    have h3 : pairs (PGElem.id :: as) (PGElem.id :: bs) = (.id, .id) :: ((bs.map fun b => (.id, b)) ++ pairs as (.id :: bs)) := by
      simp [pairs]
    rw [h3] at h1
    simp only [collect, elemProd] at h1
    split at h1
    · cases h1
    · simp only [Except.ok.injEq] at h1
      exact ⟨_, h1.symm⟩
  obtain ⟨cs', rfl⟩ := this
  exact ⟨cs', rfl, h2⟩

/-! ### Cosets -/

theorem coset_iff (M : Matrix (Fin d) (Fin d) ℝ) (hM : Mᵀ * M = 1) (P : Matrix (Fin d) (Fin d) ℝ → Prop) (W : Matrix (Fin d) (Fin d) ℝ) :
    WithCoset M P W ↔ P W ∨ P (Mᵀ * W) := by
  have hM' : M * Mᵀ = 1 := mul_eq_one_comm.1 hM
  constructor
  · rintro (h | ⟨V, hV, rfl⟩)
    · exact .inl h
    · right; rw [← Matrix.mul_assoc, hM, Matrix.one_mul]; exact hV
  · rintro (h | h)
    · exact .inl h
    · exact .inr ⟨_, h, by rw [← Matrix.mul_assoc, hM', Matrix.one_mul]⟩

theorem isGrp_coset {P : Matrix (Fin d) (Fin d) ℝ → Prop} (hP : IsGrp P) (M : Matrix (Fin d) (Fin d) ℝ) (hM : Mᵀ * M = 1)
    (hsq : P (M * M)) (hconj : ∀ W, P W → P (Mᵀ * W * M)) : IsGrp (WithCoset M P) := by
  have hM' : M * Mᵀ = 1 := mul_eq_one_comm.1 hM
  -- conjugation the other way: `M W Mᵀ = M² (Mᵀ W M) (M²)ᵀ`
  have hconj' : ∀ W, P W → P (M * W * Mᵀ) := by
    intro W hW
    have := hP.mul _ _ (hP.mul _ _ hsq (hconj W hW)) (hP.tr _ hsq)
    have e : M * M * (Mᵀ * W * M) * (M * M)ᵀ = M * W * Mᵀ := by
      rw [Matrix.transpose_mul]
      calc M * M * (Mᵀ * W * M) * (Mᵀ * Mᵀ) = M * (M * Mᵀ) * W * (M * Mᵀ) * Mᵀ := by simp only [Matrix.mul_assoc]
        _ = _ := by rw [hM', Matrix.mul_one, Matrix.mul_one]
    rwa [e] at this
  constructor
  · rintro W (h | ⟨V, hV, rfl⟩)
    · exact hP.orth W h
    · rw [Matrix.transpose_mul]
      calc Vᵀ * Mᵀ * (M * V) = Vᵀ * (Mᵀ * M) * V := by simp only [Matrix.mul_assoc]
        _ = 1 := by rw [hM, Matrix.mul_one, hP.orth V hV]
  · exact .inl hP.one
  · rintro W V (h | ⟨W', hW, rfl⟩) (h' | ⟨V', hV, rfl⟩)
    · exact .inl (hP.mul _ _ h h')
    · right
      refine ⟨Mᵀ * W * M * V', hP.mul _ _ (hconj _ h) hV, ?_⟩
      calc W * (M * V') = (M * Mᵀ) * W * M * V' := by rw [hM', Matrix.one_mul]; simp only [Matrix.mul_assoc]
        _ = _ := by simp only [Matrix.mul_assoc]
    · right
      exact ⟨W' * V, hP.mul _ _ hW h', by simp only [Matrix.mul_assoc]⟩
    · left
      have e : M * W' * (M * V') = M * M * (Mᵀ * W' * M) * V' := by
        calc M * W' * (M * V') = M * (1 : Matrix (Fin d) (Fin d) ℝ) * W' * M * V' := by rw [Matrix.mul_one]; simp only [Matrix.mul_assoc]
          _ = M * (M * Mᵀ) * W' * M * V' := by rw [hM']
          _ = _ := by simp only [Matrix.mul_assoc]
      rw [e]
      exact hP.mul _ _ (hP.mul _ _ hsq (hconj _ hW)) hV
  · rintro W (h | ⟨V, hV, rfl⟩)
    · exact .inl (hP.tr _ h)
    · right
      refine ⟨(M * M)ᵀ * (M * Vᵀ * Mᵀ), hP.mul _ _ (hP.tr _ hsq) (hconj' _ (hP.tr _ hV)), ?_⟩
      rw [Matrix.transpose_mul, Matrix.transpose_mul]
      symm
      calc M * (Mᵀ * Mᵀ * (M * Vᵀ * Mᵀ)) = (M * Mᵀ) * (Mᵀ * M) * Vᵀ * Mᵀ := by simp only [Matrix.mul_assoc]
        _ = _ := by rw [hM, hM', Matrix.one_mul, Matrix.one_mul]

theorem enum_coset {P : Matrix (Fin d) (Fin d) ℝ → Prop} (hP : IsGrp P) (M : Matrix (Fin d) (Fin d) ℝ) (hM : Mᵀ * M = 1) (hn : ¬P M)
    (Ws : List (Matrix (Fin d) (Fin d) ℝ)) (h : Enum Ws P) :
    Enum ([1, M].flatMap fun W => Ws.map fun V => W * V) (WithCoset M P) := by
  have e : ([1, M].flatMap fun W => Ws.map fun V => W * V) = Ws ++ Ws.map fun V => M * V := by simp
  rw [e]
  have inj : ∀ V V', M * V = M * V' → V = V' := by
    intro V V' h
    have := congrArg (fun X => Mᵀ * X) h
    simpa only [← Matrix.mul_assoc, hM, Matrix.one_mul] using this
  constructor
  · refine List.nodup_append.2 ⟨h.1, h.1.map fun _ _ => inj _ _, ?_⟩
    rintro W hW V hV rfl
    obtain ⟨V, hV', rfl⟩ := List.mem_map.1 hV
    apply hn
    have h1 := hP.mul _ _ ((h.2 _).1 hW) (hP.tr _ ((h.2 V).1 hV'))
    rwa [Matrix.mul_assoc, mul_eq_one_comm.1 (hP.orth V ((h.2 V).1 hV')), Matrix.mul_one] at h1
  · intro W
    rw [List.mem_append, List.mem_map, h.2]
    unfold WithCoset
    constructor
    · rintro (h1 | ⟨V, hV, rfl⟩)
      · exact .inl h1
      · exact .inr ⟨V, (h.2 V).1 hV, rfl⟩
    · rintro (h1 | ⟨V, hV, rfl⟩)
      · exact .inl h1
      · exact .inr ⟨V, (h.2 V).2 hV, rfl⟩

theorem length_coset (M : Matrix (Fin d) (Fin d) ℝ) (Ws : List (Matrix (Fin d) (Fin d) ℝ)) :
    ([1, M].flatMap fun W => Ws.map fun V => W * V).length = 2 * Ws.length := by
  simp; omega

end

end Verif.PGrp
