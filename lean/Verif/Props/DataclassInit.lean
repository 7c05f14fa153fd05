import Verif.Model.DataclassInit
import Mathlib.Data.List.Nodup

namespace Verif.DataclassInit
open Verif.Hilbert (Err)

variable {V H : Type}

/-! ## lemmas -/

/-- the names within one class statement are distinct. -/
def Distinct (c : List (Level V)) : Prop := ∀ l ∈ c, (l.fields.map Prod.fst).Nodup ∧ (l.cached.map Prod.fst).Nodup

theorem setField_names (fs : List (Nat × Option (Option V))) (f) :
    (setField fs f).map Prod.fst = if f.1 ∈ fs.map Prod.fst then fs.map Prod.fst else fs.map Prod.fst ++ [f.1] := by
  unfold setField
  split
  · rw [List.map_map]
    apply List.map_congr_left
    intro e _
    simp only [Function.comp]
    split
    · next h => exact h.symm
    · rfl
  · simp

theorem foldl_names (own : List (Nat × Option (Option V))) : ∀ fs : List (Nat × Option (Option V)),
    (fs.map Prod.fst).Nodup →
    fs.map Prod.fst <+: (own.foldl setField fs).map Prod.fst ∧ ((own.foldl setField fs).map Prod.fst).Nodup
      ∧ ∀ n, n ∈ (own.foldl setField fs).map Prod.fst ↔ n ∈ fs.map Prod.fst ∨ n ∈ own.map Prod.fst := by
  induction own with
  | nil => intro fs h; exact ⟨List.prefix_refl _, h, by simp⟩
  | cons f own ih =>
    intro fs h
    have hn := setField_names fs f
    have hnd : ((setField fs f).map Prod.fst).Nodup := by
      rw [hn]; split
      · exact h
      · next hf => exact List.Nodup.append h (by simp) (by simpa using hf)
    obtain ⟨h1, h2, h3⟩ := ih (setField fs f) hnd
    refine ⟨List.IsPrefix.trans ?_ h1, h2, fun n => ?_⟩
    · rw [hn]; split
      · exact List.prefix_refl _
      · exact List.prefix_append _ _
    · rw [List.foldl_cons, h3 n, hn, List.map_cons, List.mem_cons]
      split
      · next hf => constructor
                   · rintro (h | h); exact .inl h; exact .inr (.inr h)
                   · rintro (h | h | h); exact .inl h; subst h; exact .inl hf; exact .inr h
      · rw [List.mem_append, List.mem_singleton, or_assoc]

theorem fields_nodup : ∀ c : List (Level V), ((fieldsOf c).map Prod.fst).Nodup
  | [] => by simp [fieldsOf]
  | l :: bases => (foldl_names l.fields _ (fields_nodup bases)).2.1

theorem caches_nodup : ∀ c : List (Level V), Distinct c → (cachesOf c).Nodup
  | [], _ => by simp [cachesOf]
  | l :: bases, h => by
    have hb : Distinct bases := fun k hk => h k (List.mem_cons_of_mem _ hk)
    rw [cachesOf]
    refine List.Nodup.append (h l List.mem_cons_self).2 ((caches_nodup bases hb).filter _) ?_
    intro p hp hq
    have := (List.mem_filter.1 hq).2
    simp only [decide_eq_true_eq] at this
    exact this hp

theorem names_params (c : List (Level V)) :
    (params c).map Prod.fst = (fieldsOf c).map (fun f => Name.field f.1) ++ (cachesOf c).map Name.cache := by
  simp [params, Function.comp_def]

theorem params_nodup (c : List (Level V)) (h : Distinct c) : ((params c).map Prod.fst).Nodup := by
  rw [names_params]
  refine List.Nodup.append ?_ ?_ ?_
  · have := fields_nodup c
    have h2 : (fieldsOf c).map (fun f => Name.field f.1) = ((fieldsOf c).map Prod.fst).map Name.field := by simp [Function.comp_def]
    rw [h2]
    exact this.map (fun a b hab => by simpa using hab)
  · exact (caches_nodup c h).map (fun a b hab => by simpa using hab)
  · intro n hn hm
    obtain ⟨f, _, rfl⟩ := List.mem_map.1 hn
    obtain ⟨p, _, hp⟩ := List.mem_map.1 hm
    cases hp

theorem bindRest_ok (kw : List (Name × Option V)) : ∀ (ps : List (Name × Option (Option V))) (r : List (Name × Option V)),
    bindRest kw ps = .ok r ↔ r.map Prod.fst = ps.map Prod.fst ∧ List.Forall₂ (fun p (e : Name × Option V) => (lookup kw p.1).or p.2 = some e.2) ps r
  | [], r => by
    cases r <;> simp [bindRest]
  | p :: ps, r => by
    rw [bindRest]
    cases hv : (lookup kw p.1).or p.2 with
    | none =>
      simp only [reduceCtorEq, false_iff, not_and]
      intro hn hf
      cases hf with
      | cons h _ => rw [hv] at h; cases h
    | some v =>
      simp only
      cases hb : bindRest kw ps with
      | error e =>
        simp only [reduceCtorEq, false_iff, not_and]
        intro hn hf
        cases hf with
        | cons h hf =>
          rename_i e' r'
          have := (bindRest_ok kw ps r').2 ⟨by simpa using (List.cons.inj (by simpa using hn : e'.1 :: r'.map Prod.fst = p.1 :: ps.map Prod.fst)).2, hf⟩
          rw [hb] at this; cases this
      | ok r' =>
        have ih := (bindRest_ok kw ps r').1 hb
        constructor
        · intro h
          cases h
          exact ⟨by simp [ih.1], List.Forall₂.cons hv ih.2⟩
        · rintro ⟨hn, hf⟩
          cases hf with
          | cons h hf =>
            rename_i e'' r''
            have hn' := List.cons.inj (by simpa using hn : e''.1 :: r''.map Prod.fst = p.1 :: ps.map Prod.fst)
            have h2 := (bindRest_ok kw ps r'').2 ⟨hn'.2, hf⟩
            rw [hb] at h2; cases h2
            rw [hv] at h
            have : e''.2 = v := (Option.some.inj h).symm
            rw [← hn'.1, ← this]

theorem lookup_map (names : List Name) (w : Name → Option V) (n : Name) :
    lookup (names.map fun m => (m, w m)) n = if n ∈ names then some (w n) else none := by
  induction names with
  | nil => simp [lookup]
  | cons m names ih =>
    unfold lookup at ih ⊢
    rw [List.map_cons, List.find?_cons]
    by_cases h : m = n
    · subst h; simp
    · have h' : n ≠ m := fun e => h e.symm
      simp only [h, decide_false, List.mem_cons, h', false_or]
      exact ih

theorem lookup_append (l k : List (Name × Option V)) (n : Name) : lookup (l ++ k) n = (lookup l n).or (lookup k n) := by
  unfold lookup
  rw [List.find?_append]
  cases List.find? (fun e => decide (e.1 = n)) l <;> simp

theorem lookup_eq_none (l : List (Name × Option V)) (n : Name) : lookup l n = none ↔ n ∉ l.map Prod.fst := by
  unfold lookup
  rw [Option.map_eq_none_iff, List.find?_eq_none]
  simp only [decide_eq_true_eq, List.mem_map, not_exists, not_and]

theorem bind_kw (ps : List (Name × Option (Option V))) (kw : List (Name × Option V)) (w : Name → Option V)
    (hin : ∀ e ∈ kw, e.1 ∈ ps.map Prod.fst) (hw : ∀ p ∈ ps, lookup kw p.1 = some (w p.1)) :
    bind ps { kw := kw } = .ok (ps.map fun p => (p.1, w p.1)) := by
  have hr : bindRest kw ps = .ok (ps.map fun p => (p.1, w p.1)) := by
    rw [bindRest_ok]
    refine ⟨by simp [Function.comp_def], ?_⟩
    rw [List.forall₂_map_right_iff, List.forall₂_same]
    intro p hp
    rw [hw p hp]; rfl
  unfold bind
  have h1 : (kw.any fun e => decide (e.1 ∉ ps.map Prod.fst)) = false := by
    rw [List.any_eq_false]; intro e he; simpa using hin e he
  simp only [List.length_nil, Nat.not_lt_zero, if_false, List.take_zero, List.map_nil, List.not_mem_nil, decide_false, List.drop_zero, hr, List.zip_nil_left,
    List.nil_append]
  rw [h1]
  simp

theorem get_map (ps : List Name) (w : Name → Option V) (h : Option H) (n : Name) (hn : n ∈ ps) :
    (Obj.mk (ps.map fun m => (m, w m)) h).get n = w n := by
  unfold Obj.get
  rw [lookup_map, if_pos hn]; rfl

/-- an object whose attributes have distinct names is determined by their values. -/
theorem vals_eq (vals : List (Name × Option V)) (hn : (vals.map Prod.fst).Nodup) :
    vals = (vals.map Prod.fst).map fun n => (n, (lookup vals n).join) := by
  rw [List.map_map]
  conv_lhs => rw [← List.map_id vals]
  apply List.map_congr_left
  intro e he
  have : lookup vals e.1 = some e.2 := by
    unfold lookup
    induction vals with
    | nil => cases he
    | cons f vals ih =>
      rw [List.find?_cons]
      rcases List.mem_cons.1 he with rfl | he'
      · simp
      · have hne : f.1 ≠ e.1 := by
          intro heq
          have h2 := (List.nodup_cons.1 (by simpa using hn : (f.1 :: vals.map Prod.fst).Nodup)).1
          exact h2 (List.mem_map.2 ⟨e, he', heq.symm⟩)
        simp only [hne, decide_false]
        exact ih (List.nodup_cons.1 (by simpa using hn : (f.1 :: vals.map Prod.fst).Nodup)).2 he'
  simp [Function.comp, this]

theorem setCache_names (o : Obj V H) (p : Nat) (v : V) : (o.setCache p v).vals.map Prod.fst = o.vals.map Prod.fst := by
  unfold Obj.setCache
  rw [List.map_map]
  apply List.map_congr_left
  intro e _
  simp only [Function.comp]
  split <;> rfl

theorem setCache_get_other (o : Obj V H) (p : Nat) (v : V) (n : Name) (hn : n ≠ .cache p) : (o.setCache p v).get n = o.get n := by
  unfold Obj.setCache Obj.get
  congr 1
  simp only
  generalize o.vals = vals
  induction vals with
  | nil => rfl
  | cons e vals ih =>
    unfold lookup at ih ⊢
    rw [List.map_cons, List.find?_cons, List.find?_cons]
    by_cases he : e.1 = .cache p
    · have h1 : e.1 ≠ n := fun h => hn (h.symm.trans he)
      simp only [if_pos he, h1, decide_false]
      exact ih
    · simp only [if_neg he]
      by_cases h2 : e.1 = n
      · simp [h2]
      · simp only [h2, decide_false]; exact ih

theorem setCache_get_same (o : Obj V H) (p : Nat) (v : V) (hp : Name.cache p ∈ o.vals.map Prod.fst) : (o.setCache p v).get (.cache p) = some v := by
  unfold Obj.setCache Obj.get
  simp only
  revert hp
  generalize o.vals = vals
  intro hp
  induction vals with
  | nil => simp at hp
  | cons e vals ih =>
    unfold lookup at ih ⊢
    rw [List.map_cons, List.find?_cons]
    by_cases he : e.1 = .cache p
    · simp [he]
    · rw [List.map_cons, List.mem_cons] at hp
      have := ih (hp.resolve_left fun h => he h.symm)
      rw [if_neg he]
      simp only [he, decide_false]
      exact this

/-! ## C216: construction, inheritance, `replace`, caches -/

/-- what a python call does with its arguments: positional arguments fill the first parameters, the others are given by keyword or have a default; names which are
    not parameters, or which are given twice, are refused. -/
def Binds (ps : List (Name × Option (Option V))) (a : Args V) (vals : List (Name × Option V)) : Prop :=
  a.pos.length ≤ ps.length ∧ (∀ e ∈ a.kw, e.1 ∈ ps.map Prod.fst ∧ e.1 ∉ (ps.take a.pos.length).map Prod.fst)
    ∧ vals.map Prod.fst = ps.map Prod.fst
    ∧ ∀ (i : Nat) p v, ps[i]? = some p → vals[i]? = some v → if h : i < a.pos.length then v.2 = a.pos[i] else (lookup a.kw p.1).or p.2 = some v.2

theorem bind_ok (ps : List (Name × Option (Option V))) (a : Args V) (vals : List (Name × Option V)) : bind ps a = .ok vals ↔ Binds ps a vals := by
  unfold bind Binds
  by_cases h1 : ps.length < a.pos.length
  · simp [h1]
  simp only [h1, if_false]
  have hle : a.pos.length ≤ ps.length := by omega
  by_cases h2 : (a.kw.any fun e => decide (e.1 ∉ ps.map Prod.fst)) = true
  · simp only [h2, if_true, reduceCtorEq, false_iff, not_and]
    intro _ h
    obtain ⟨e, he, h3⟩ := List.any_eq_true.1 h2
    simp only [decide_eq_true_eq] at h3
    exact absurd (h e he).1 h3
  have h2' : (a.kw.any fun e => decide (e.1 ∉ ps.map Prod.fst)) = false := by simpa using h2
  simp only [h2', Bool.false_eq_true, if_false]
  by_cases h3 : (a.kw.any fun e => decide (e.1 ∈ (ps.take a.pos.length).map Prod.fst)) = true
  · simp only [h3, if_true, reduceCtorEq, false_iff, not_and]
    intro _ h
    obtain ⟨e, he, h4⟩ := List.any_eq_true.1 h3
    simp only [decide_eq_true_eq] at h4
    exact absurd h4 (h e he).2
  have h3' : (a.kw.any fun e => decide (e.1 ∈ (ps.take a.pos.length).map Prod.fst)) = false := by simpa using h3
  simp only [h3', Bool.false_eq_true, if_false]
  have hkw : ∀ e ∈ a.kw, e.1 ∈ ps.map Prod.fst ∧ e.1 ∉ (ps.take a.pos.length).map Prod.fst := by
    intro e he
    have a1 := List.any_eq_false.1 h2' e he
    have a2 := List.any_eq_false.1 h3' e he
    exact ⟨by simpa using a1, by simpa using a2⟩
  have hz : (((ps.take a.pos.length).map Prod.fst).zip a.pos).map Prod.fst = (ps.take a.pos.length).map Prod.fst := by
    rw [List.map_fst_zip]; simp [hle]
  have key : ∀ r, ((((ps.take a.pos.length).map Prod.fst).zip a.pos ++ r) = vals ∧ bindRest a.kw (ps.drop a.pos.length) = .ok r) →
      (vals.map Prod.fst = ps.map Prod.fst
    ∧ ∀ (i : Nat) p v, ps[i]? = some p → vals[i]? = some v → if h : i < a.pos.length then v.2 = a.pos[i] else (lookup a.kw p.1).or p.2 = some v.2) := by
    rintro r ⟨rfl, hr⟩
    obtain ⟨hn, hf⟩ := (bindRest_ok _ _ _).1 hr
    refine ⟨by rw [List.map_append, hz, hn, ← List.map_append, List.take_append_drop], fun i p v hp hv => ?_⟩
    have hzl : (((ps.take a.pos.length).map Prod.fst).zip a.pos).length = a.pos.length := by simp [hle]
    by_cases hi : i < a.pos.length
    · rw [dif_pos hi]
      rw [List.getElem?_append_left (by omega), List.getElem?_eq_getElem (by omega)] at hv
      simp only [List.getElem_zip, Option.some.injEq] at hv
      rw [← hv]
    · rw [dif_neg hi]
      rw [List.getElem?_append_right (by omega), hzl] at hv
      have hp' : (ps.drop a.pos.length)[i - a.pos.length]? = some p := by
        rw [List.getElem?_drop, Nat.add_sub_cancel' (by omega)]; exact hp
      rw [List.forall₂_iff_get] at hf
      obtain ⟨hl, hg⟩ := hf
      obtain ⟨hj, rfl⟩ := List.getElem?_eq_some_iff.1 hp'
      obtain ⟨hj2, rfl⟩ := List.getElem?_eq_some_iff.1 hv
      exact hg _ hj hj2
  constructor
  · intro h
    cases hr : bindRest a.kw (ps.drop a.pos.length) with
    | error e => rw [hr] at h; cases h
    | ok r =>
      rw [hr] at h
      simp only [Except.ok.injEq] at h
      have := key r ⟨h, hr⟩
      exact ⟨hle, hkw, this.1, this.2⟩
  · rintro ⟨_, _, hn, hv⟩
    have hlen : vals.length = ps.length := by simpa using congrArg List.length hn
    have hr : bindRest a.kw (ps.drop a.pos.length) = .ok (vals.drop a.pos.length) := by
      rw [bindRest_ok]
      refine ⟨by rw [List.map_drop, hn, List.map_drop], ?_⟩
      rw [List.forall₂_iff_get]
      refine ⟨by simp [hlen], fun i h1 h2 => ?_⟩
      have := hv (a.pos.length + i) (ps[a.pos.length + i]'(by simp at h1; omega)) (vals[a.pos.length + i]'(by simp at h2; omega))
        (List.getElem?_eq_getElem _) (List.getElem?_eq_getElem _)
      rw [dif_neg (by omega)] at this
      simpa using this
    rw [hr]
    simp only [Except.ok.injEq]
    conv_rhs => rw [← List.take_append_drop a.pos.length vals]
    congr 1
    apply List.ext_getElem
    · simp [hle, hlen]
    · intro i h1 h2
      have hi : i < a.pos.length := by simp at h1; omega
      have hv' := hv i (ps[i]'(by omega)) (vals[i]'(by omega)) (List.getElem?_eq_getElem _) (List.getElem?_eq_getElem _)
      rw [dif_pos hi] at hv'
      have hn' : vals[i].1 = ps[i].1 := by
        have := congrArg (fun l => l[i]?) hn
        simp only [List.getElem?_map] at this
        rw [List.getElem?_eq_getElem (by omega), List.getElem?_eq_getElem (by omega)] at this
        simpa using this
      simp only [List.getElem_zip, List.getElem_map, List.getElem_take]
      rw [← hv', ← hn']

theorem bindRest_error (kw : List (Name × Option V)) : ∀ (ps : List (Name × Option (Option V))) e, bindRest kw ps = .error e → e = .typeError
  | [], e, h => by simp [bindRest] at h
  | p :: ps, e, h => by
    rw [bindRest] at h
    cases hv : (lookup kw p.1).or p.2 with
    | none => rw [hv] at h; cases h; rfl
    | some v =>
      rw [hv] at h
      cases hb : bindRest kw ps with
      | error e' => rw [hb] at h; cases h; exact bindRest_error kw ps _ hb
      | ok r => rw [hb] at h; cases h

theorem bind_error (ps : List (Name × Option (Option V))) (a : Args V) (e : Err) (h : bind ps a = .error e) : e = .typeError := by
  unfold bind at h
  split at h
  · cases h; rfl
  split at h
  · cases h; rfl
  split at h
  · cases h; rfl
  split at h
  · next e' hb => cases h; exact bindRest_error _ _ _ hb
  · cases h

/-- C216: the fields of a base come first and in the same order (a call of a base by position has the same meaning for a derived class), every field and every cached
    property of every base is present, and no name occurs twice. -/
theorem C216_fields (l : Level V) (bases : List (Level V)) (h : Distinct (l :: bases)) :
    (fieldsOf bases).map Prod.fst <+: (fieldsOf (l :: bases)).map Prod.fst
    ∧ (∀ n, n ∈ (fieldsOf (l :: bases)).map Prod.fst ↔ ∃ k ∈ l :: bases, n ∈ k.fields.map Prod.fst)
    ∧ (∀ p, p ∈ cachesOf (l :: bases) ↔ ∃ k ∈ l :: bases, p ∈ k.cached.map Prod.fst)
    ∧ ((params (l :: bases)).map Prod.fst).Nodup := by
  refine ⟨(foldl_names l.fields _ (fields_nodup bases)).1, ?_, ?_, params_nodup _ h⟩
  · generalize l :: bases = c
    intro n
    induction c with
    | nil => simp [fieldsOf]
    | cons l bases ih =>
      rw [fieldsOf, (foldl_names l.fields _ (fields_nodup bases)).2.2 n, ih]
      simp only [List.mem_cons, exists_eq_or_imp]
      exact or_comm
  · generalize l :: bases = c
    intro p
    induction c with
    | nil => simp [cachesOf]
    | cons l bases ih =>
      rw [cachesOf, List.mem_append, List.mem_filter, ih]
      simp only [List.mem_cons, exists_eq_or_imp, decide_eq_true_eq]
      tauto

/-- C216: without preprocessing, the constructor follows the rules of python calls, with the fields and then the caches (which have a default) as parameters; all other
    calls are refused with a TypeError. A new object has no cached hash. -/
theorem C216_arguments (c : List (Level V)) (a : Args V) :
    (∀ o : Obj V H, construct c true a = .ok o ↔ Binds (params c) a o.vals ∧ o.hash = none)
    ∧ ∀ e, construct (H := H) c true a = .error e → e = .typeError := by
  constructor
  · intro o
    simp only [construct, initDataclass, if_true]
    rw [← bind_ok]
    cases hb : bind (params c) a with
    | error e => simp
    | ok v =>
      simp only [Except.ok.injEq]
      constructor
      · rintro rfl; exact ⟨rfl, rfl⟩
      · rintro ⟨rfl, h⟩; cases o; simp at h; subst h; rfl
  · intro e h
    simp only [construct, initDataclass, if_true] at h
    cases hb : bind (params c) a with
    | error e' => rw [hb] at h; cases h; exact bind_error _ _ _ hb
    | ok v => rw [hb] at h; cases h

/-- C216: the arguments are preprocessed by the `__pre_init__` of the most derived class that has one, which is given the one of its own bases; if there is none they
    are used as they are. -/
theorem C216_pre (ds : List (Level V)) (hd : ∀ l ∈ ds, l.pre = none) (a : Args V) :
    (∀ (l : Level V) (f) (bases : List (Level V)), l.pre = some f → preInit (ds ++ l :: bases) a = f (preInit bases) a)
    ∧ (ds ≠ [] → preInit ds a = .ok a) := by
  constructor
  · intro l f bases hl
    induction ds with
    | nil => simp [preInit, hl]
    | cons d ds ih =>
      rw [List.cons_append, preInit.eq_def]
      simp only [hd d List.mem_cons_self]
      have := ih fun k hk => hd k (List.mem_cons_of_mem _ hk)
      cases ds <;> exact this
  · intro _
    induction ds with
    | nil => contradiction
    | cons d ds ih =>
      rw [preInit.eq_def]
      simp only [hd d List.mem_cons_self]
      cases ds with
      | nil => rfl
      | cons k ds => exact ih (fun k hk => hd k (List.mem_cons_of_mem _ hk)) (by simp)

/-- the objects a program can have: constructed, replaced, unflattened, and after reading cached properties or the hash. -/
inductive Reachable (c : List (Level V)) (compute : (Nat → Option V) → H) : Obj V H → Prop
  | construct {skip a o} : construct c skip a = .ok o → Reachable c compute o
  | read {o p d r} : Reachable c compute o → read c p d o = .ok r → Reachable c compute r.2
  | hash {o} : Reachable c compute o → Reachable c compute (hash compute o).2

theorem construct_shape (c : List (Level V)) (skip : Bool) (a : Args V) (o : Obj V H) (h : construct c skip a = .ok o) :
    o.vals.map Prod.fst = (params c).map Prod.fst ∧ o.hash = none := by
  have hi : ∀ b, initDataclass c b = .ok o → o.vals.map Prod.fst = (params c).map Prod.fst ∧ o.hash = none := by
    intro b hb
    have : construct c true b = .ok o := by simpa [construct] using hb
    obtain ⟨h1, h2⟩ := ((C216_arguments c b).1 o).1 this
    exact ⟨h1.2.2.1, h2⟩
  unfold construct at h
  cases skip with
  | true => exact hi a (by simpa using h)
  | false =>
    simp only [Bool.false_eq_true, if_false] at h
    cases hp : preInit c a with
    | error e => rw [hp] at h; cases h
    | ok b => rw [hp] at h; exact hi b h

theorem read_spec (c : List (Level V)) (p : Nat) : ∀ (d : Nat) (o : Obj V H) (r), read c p d o = .ok r →
    r.2.vals.map Prod.fst = o.vals.map Prod.fst ∧ r.2.hash = o.hash ∧ ∀ n, r.2.get (.field n) = o.get (.field n)
  | 0, o, r, h => by simp [read] at h
  | d + 1, o, r, h => by
    rw [read] at h
    cases hg : o.get (.cache p) with
    | some v => rw [hg] at h; cases h; exact ⟨rfl, rfl, fun _ => rfl⟩
    | none =>
      rw [hg] at h
      cases hm : method c p with
      | none => rw [hm] at h; cases h
      | some m =>
        rw [hm] at h
        obtain ⟨b, bases⟩ := m
        cases b with
        | plain f =>
          cases h
          exact ⟨setCache_names _ _ _, rfl, fun n => setCache_get_other _ _ _ _ (by simp)⟩
        | withSuper g =>
          dsimp only at h
          cases hb : method bases p with
          | none => rw [hb] at h; cases h
          | some m =>
            rw [hb] at h
            dsimp only at h
            cases hr : read c p d o with
            | error e => rw [hr] at h; cases h
            | ok r' =>
              rw [hr] at h
              cases h
              obtain ⟨h1, h2, h3⟩ := read_spec c p d o r' hr
              exact ⟨(setCache_names _ _ _).trans h1, h2, fun n => (setCache_get_other _ _ _ _ (by simp)).trans (h3 n)⟩

theorem reachable_shape (c : List (Level V)) (compute : (Nat → Option V) → H) (o : Obj V H) (h : Reachable c compute o) :
    o.vals.map Prod.fst = (params c).map Prod.fst := by
  induction h with
  | construct h => exact (construct_shape c _ _ _ h).1
  | read _ hr ih => exact (read_spec c _ _ _ _ hr).1.trans ih
  | @hash o _ ih =>
    unfold hash
    split
    · exact ih
    · exact ih

/-- C216: whatever was done with an object before, its hash is the hash of its fields. -/
theorem C216_hash (c : List (Level V)) (compute : (Nat → Option V) → H) (o : Obj V H) (h : Reachable c compute o) :
    (hash compute o).1 = compute fun n => o.get (.field n) := by
  suffices hs : ∀ v, o.hash = some v → v = compute fun n => o.get (.field n) by
    unfold hash
    cases ho : o.hash with
    | none => rfl
    | some v => exact hs v ho
  induction h with
  | construct h => intro v hv; rw [(construct_shape c _ _ _ h).2] at hv; cases hv
  | @read o p d r _ hr ih =>
    intro v hv
    obtain ⟨_, h2, h3⟩ := read_spec c p d o r hr
    rw [h2] at hv
    rw [ih v hv]
    simp only [h3]
  | @hash o _ ih =>
    intro v hv
    unfold hash at hv ⊢
    cases ho : o.hash with
    | none => rw [ho] at hv; cases hv; rfl
    | some w => rw [ho] at hv; exact ih v (ho ▸ hv)

/-- C216: flattening an object and unflattening it gives the object again, with its caches and without `__pre_init__`; only the cached hash is cleared. -/
theorem C216_pytree (c : List (Level V)) (hc : Distinct c) (compute : (Nat → Option V) → H) (node : Nat → Bool) (o : Obj V H) (h : Reachable c compute o) :
    unflatten c node (flatten c node o).1 (flatten c node o).2 = .ok (⟨o.vals, none⟩ : Obj V H) := by
  have hsh := reachable_shape c compute o h
  have hz : ∀ names : List Name, names.zip (names.map o.get) = names.map fun n => (n, o.get n) := by
    intro names
    apply List.ext_getElem <;> simp
  unfold unflatten flatten construct initDataclass
  simp only [if_true, hz]
  rw [bind_kw (params c) _ o.get]
  · simp only [Except.ok.injEq, Obj.mk.injEq, and_true]
    have h2 := vals_eq o.vals (by rw [hsh]; exact params_nodup c hc)
    rw [hsh, List.map_map] at h2
    exact h2.symm
  · intro e he
    rw [names_params]
    rw [← List.map_append, List.mem_map] at he
    obtain ⟨n, hn, rfl⟩ := he
    simp only [metaFields, dataFields, List.mem_append, List.mem_map, List.mem_filter] at hn ⊢
    rcases hn with (⟨f, ⟨hf, _⟩, rfl⟩ | ⟨p, hp, rfl⟩) | ⟨f, ⟨hf, _⟩, rfl⟩
    · exact .inl ⟨f, hf, rfl⟩
    · exact .inr ⟨p, hp, rfl⟩
    · exact .inl ⟨f, hf, rfl⟩
  · intro q hq
    rw [← List.map_append, lookup_map, if_pos]
    have hq' : q.1 ∈ (params c).map Prod.fst := List.mem_map.2 ⟨q, hq, rfl⟩
    rw [names_params, List.mem_append, List.mem_map, List.mem_map] at hq'
    simp only [metaFields, dataFields, List.mem_append, List.mem_map, List.mem_filter]
    rcases hq' with ⟨f, hf, hfq⟩ | ⟨p, hp, hpq⟩
    · cases hb : node f.1 with
      | true => exact .inr ⟨f, ⟨hf, by simp [hb]⟩, hfq⟩
      | false => exact .inl (.inl ⟨f, ⟨hf, by simp [hb]⟩, hfq⟩)
    · exact .inl (.inr ⟨p, hp, hpq⟩)

theorem mem_replaceKw (c : List (Level V)) (o : Obj V H) (updates : List (Name × Option V)) (e : Name × Option V) (he : e ∈ replaceKw c o updates) :
    e ∈ updates ∨ e.1 ∈ (params c).map Prod.fst := by
  unfold replaceKw at he
  simp only [List.mem_append, List.mem_filter, List.mem_map] at he
  rw [names_params, List.mem_append, List.mem_map, List.mem_map]
  rcases he with (⟨h, _⟩ | ⟨p, hp, rfl⟩) | ⟨f, ⟨hf, _⟩, rfl⟩
  · exact .inl h
  · exact .inr (.inr ⟨p, hp, rfl⟩)
  · exact .inr (.inl ⟨f, hf, rfl⟩)

theorem lookup_filter_of (l : List (Name × Option V)) (q : Name → Bool) (n : Name) :
    lookup (l.filter fun e => q e.1) n = if q n then lookup l n else none := by
  induction l with
  | nil => simp [lookup]
  | cons e l ih =>
    unfold lookup at ih ⊢
    rw [List.filter_cons, List.find?_cons]
    by_cases hq : q e.1
    · rw [if_pos hq, List.find?_cons]
      by_cases hn : e.1 = n
      · subst hn; simp [hq]
      · simp only [hn, decide_false]; exact ih
    · rw [if_neg hq, ih]
      by_cases hn : e.1 = n
      · subst hn; simp [hq]
      · simp only [hn, decide_false]

theorem lookup_replaceKw (c : List (Level V)) (o : Obj V H) (updates : List (Name × Option V)) :
    (∀ n ∈ (fieldsOf c).map Prod.fst, lookup (replaceKw c o updates) (.field n) = some ((lookup updates (.field n)).getD (o.get (.field n))))
    ∧ ∀ p ∈ cachesOf c, lookup (replaceKw c o updates) (.cache p) = some none := by
  have hf : ∀ n, lookup (updates.filter fun e => decide (∀ p ∈ cachesOf c, e.1 ≠ .cache p)) n
      = if (∀ p ∈ cachesOf c, n ≠ .cache p) then lookup updates n else none := by
    intro n
    have := lookup_filter_of updates (fun n => decide (∀ p ∈ cachesOf c, n ≠ .cache p)) n
    simpa using this
  have hcm : ∀ n, lookup ((cachesOf c).map fun p => (Name.cache p, (none : Option V))) n = if n ∈ (cachesOf c).map Name.cache then some none else none := by
    intro n
    have := lookup_map ((cachesOf c).map Name.cache) (fun _ => (none : Option V)) n
    rwa [List.map_map] at this
  constructor
  · intro n hn
    unfold replaceKw
    simp only
    rw [lookup_append, lookup_append, hf, hcm]
    rw [if_pos (by simp), if_neg (by simp), Option.or_none]
    cases hu : lookup updates (.field n) with
    | some v => rfl
    | none =>
      rw [Option.none_or, Option.getD_none]
      have hl := lookup_map (((fieldsOf c).filter fun f => decide (Name.field f.1 ∉ ((updates.filter fun e : Name × Option V => decide (∀ p ∈ cachesOf c, e.1 ≠ Name.cache p))
        ++ (cachesOf c).map fun p => (Name.cache p, (none : Option V))).map Prod.fst)).map fun f => Name.field f.1) o.get (.field n)
      rw [List.map_map] at hl
      refine hl.trans (if_pos ?_)
      obtain ⟨f, hf', rfl⟩ := List.mem_map.1 hn
      refine List.mem_map.2 ⟨f, List.mem_filter.2 ⟨hf', ?_⟩, rfl⟩
      rw [decide_eq_true_eq, ← lookup_eq_none, lookup_append, hf, hcm]
      simp [hu]
  · intro p hp
    unfold replaceKw
    simp only
    rw [lookup_append, lookup_append, hf, hcm, if_neg (by intro h; exact h p hp rfl), if_pos (List.mem_map.2 ⟨p, hp, rfl⟩)]
    rfl

/-- C216: if `__pre_init__` keeps keyword arguments as they are (in particular without `__pre_init__`), `replace` makes an object of which the given fields have the new
    and the others the old values, with all caches and the hash cleared, and refuses other names with a TypeError. -/
theorem C216_replace (c : List (Level V)) (hpre : ∀ kw, preInit c { kw := kw } = .ok { kw := kw }) (o : Obj V H)
    (updates : List (Name × Option V)) :
    ((∀ e ∈ updates, e.1 ∈ (params c).map Prod.fst) → ∃ o', replace c o updates = .ok o' ∧ o'.vals.map Prod.fst = (params c).map Prod.fst
      ∧ (∀ n ∈ (fieldsOf c).map Prod.fst, o'.get (.field n) = (lookup updates (.field n)).getD (o.get (.field n)))
      ∧ (∀ p, o'.get (.cache p) = none) ∧ o'.hash = none)
    ∧ ((∃ e ∈ updates, e.1 ∉ (params c).map Prod.fst) → replace c o updates = .error .typeError) := by
  obtain ⟨h1, h2⟩ := lookup_replaceKw c o updates
  constructor
  · intro hin
    let w : Name → Option V := fun n => match n with
      | .field n => (lookup updates (.field n)).getD (o.get (.field n))
      | .cache _ => none
    have hb : bind (params c) { kw := replaceKw c o updates } = .ok ((params c).map fun p => (p.1, w p.1)) := by
      apply bind_kw
      · intro e he
        exact (mem_replaceKw c o updates e he).elim (hin e) id
      · intro q hq
        have hq' : q.1 ∈ (params c).map Prod.fst := List.mem_map.2 ⟨q, hq, rfl⟩
        rw [names_params, List.mem_append, List.mem_map, List.mem_map] at hq'
        rcases hq' with ⟨f, hf, hfq⟩ | ⟨p, hp, hpq⟩
        · rw [← hfq]; exact h1 f.1 (List.mem_map.2 ⟨f, hf, rfl⟩)
        · rw [← hpq]; exact h2 p hp
    have hm : (params c).map (fun p => (p.1, w p.1)) = ((params c).map Prod.fst).map fun n => (n, w n) := by rw [List.map_map]; rfl
    refine ⟨⟨((params c).map Prod.fst).map fun n => (n, w n), none⟩, ?_, ?_, ?_, ?_, rfl⟩
    · unfold replace construct initDataclass
      simp only [Bool.false_eq_true, if_false, hpre, hb, hm]
    · simp only [List.map_map]; rfl
    · intro n hn
      obtain ⟨f, hf, rfl⟩ := List.mem_map.1 hn
      exact get_map _ w none (.field f.1) (by rw [names_params]; exact List.mem_append_left _ (List.mem_map.2 ⟨f, hf, rfl⟩))
    · intro p
      unfold Obj.get
      rw [lookup_map]
      split <;> rfl
  · rintro ⟨e, he, hn⟩
    have hmem : ∃ e' ∈ replaceKw c o updates, e'.1 ∉ (params c).map Prod.fst := by
      refine ⟨e, ?_, hn⟩
      unfold replaceKw
      simp only [List.mem_append, List.mem_filter]
      refine .inl (.inl ⟨he, ?_⟩)
      rw [decide_eq_true_eq]
      intro p hp heq
      apply hn
      rw [heq, names_params]
      exact List.mem_append_right _ (List.mem_map.2 ⟨p, hp, rfl⟩)
    unfold replace construct initDataclass
    simp only [Bool.false_eq_true, if_false, hpre]
    cases hb : bind (params c) { kw := replaceKw c o updates } with
    | error e => rw [bind_error _ _ _ hb]
    | ok v =>
      obtain ⟨e', he', hn'⟩ := hmem
      exact absurd (((bind_ok _ _ _).1 hb).2.1 e' he').1 hn'

/-- the value a cached property should have, for a method that does not use `super()`: its function of the fields. -/
def Value (c : List (Level V)) (o : Obj V H) (p : Nat) (v : V) : Prop :=
  ∃ f bases, method c p = some (.plain f, bases) ∧ v = f fun n => o.get (.field n)

theorem read_plain (c : List (Level V)) (o : Obj V H) (p d : Nat) (f) (bases) (hm : method c p = some (.plain f, bases)) (hn : o.get (.cache p) = none) :
    read c p (d + 1) o = .ok (f fun n => o.get (.field n), o.setCache p (f fun n => o.get (.field n))) := by
  rw [read, hn, hm]

/-- C216: a cached property that was not read has the value computed by the method of the most derived class; this value is kept and the method is not called again. -/
theorem C216_cached (c : List (Level V)) (compute : (Nat → Option V) → H) (o : Obj V H) (h : Reachable c compute o) (p d : Nat) (hp : p ∈ cachesOf c)
    (f) (bases) (hm : method c p = some (.plain f, bases)) (hn : o.get (.cache p) = none) :
    ∃ r, read c p (d + 1) o = .ok r ∧ r.1 = (f fun n => o.get (.field n)) ∧ (∀ n, n ≠ .cache p → r.2.get n = o.get n)
      ∧ ∀ c' d', read c' p (d' + 1) r.2 = .ok r := by
  refine ⟨_, read_plain c o p d f bases hm hn, rfl, fun n hn => setCache_get_other _ _ _ _ hn, fun c' d' => ?_⟩
  rw [read, setCache_get_same]
  rw [reachable_shape c compute o h, names_params]
  exact List.mem_append_right _ (List.mem_map.2 ⟨p, hp, rfl⟩)

theorem readAll_spec (c : List (Level V)) (d : Nat) : ∀ (ps : List Nat) (o : Obj V H), ps.Nodup → (∀ p ∈ ps, Name.cache p ∈ o.vals.map Prod.fst) →
    (∀ p ∈ ps, ∃ f bases, method c p = some (.plain f, bases)) → (∀ p ∈ ps, o.get (.cache p) = none) →
    ∃ o', readAll c (d + 1) ps o = .ok o' ∧ (∀ n, (∀ p ∈ ps, n ≠ .cache p) → o'.get n = o.get n)
      ∧ ∀ p ∈ ps, ∃ v, o'.get (.cache p) = some v ∧ Value c o p v
  | [], o, _, _, _, _ => ⟨o, rfl, fun _ _ => rfl, by simp⟩
  | p :: ps, o, hnd, hin, hm, hn => by
    obtain ⟨f, bases, hf⟩ := hm p List.mem_cons_self
    have hr := read_plain c o p d f bases hf (hn p List.mem_cons_self)
    have hnd' := List.nodup_cons.1 hnd
    obtain ⟨o', h1, h2, h3⟩ := readAll_spec c d ps (o.setCache p (f fun n => o.get (.field n))) hnd'.2
      (fun q hq => by rw [setCache_names]; exact hin q (List.mem_cons_of_mem _ hq)) (fun q hq => hm q (List.mem_cons_of_mem _ hq))
      (fun q hq => by
        rw [setCache_get_other _ _ _ _ (by rintro h; cases h; exact hnd'.1 hq)]
        exact hn q (List.mem_cons_of_mem _ hq))
    refine ⟨o', by rw [readAll, hr]; exact h1, ?_, ?_⟩
    · intro n hn'
      rw [h2 n fun q hq => hn' q (List.mem_cons_of_mem _ hq), setCache_get_other _ _ _ _ (hn' p List.mem_cons_self)]
    · intro q hq
      rcases List.mem_cons.1 hq with rfl | hq
      · refine ⟨_, ?_, f, bases, hf, rfl⟩
        rw [h2 _ fun r hr h => by cases h; exact hnd'.1 hr]
        exact setCache_get_same _ _ _ (hin q List.mem_cons_self)
      · obtain ⟨v, hv, g, b, hg, hgv⟩ := h3 q hq
        refine ⟨v, hv, g, b, hg, ?_⟩
        rw [hgv]
        congr 1
        funext n
        exact setCache_get_other _ _ _ _ (by simp)

/-- C216: `_precompute_cached_properties` fills the caches of all cached properties, own and inherited, with their values, and changes nothing else. -/
theorem C216_precompute (c : List (Level V)) (hc : Distinct c) (compute : (Nat → Option V) → H) (o : Obj V H) (h : Reachable c compute o) (d : Nat)
    (hm : ∀ p ∈ cachesOf c, ∃ f bases, method c p = some (.plain f, bases)) (hn : ∀ p ∈ cachesOf c, o.get (.cache p) = none) :
    ∃ o', precompute c (d + 1) o = .ok o' ∧ (∀ n, o'.get (.field n) = o.get (.field n)) ∧ ∀ p ∈ cachesOf c, ∃ v, o'.get (.cache p) = some v ∧ Value c o p v := by
  obtain ⟨o', h1, h2, h3⟩ := readAll_spec c d (cachesOf c) o (caches_nodup c hc)
    (fun p hp => by rw [reachable_shape c compute o h, names_params]; exact List.mem_append_right _ (List.mem_map.2 ⟨p, hp, rfl⟩)) hm hn
  exact ⟨o', h1, fun n => h2 _ (by simp), h3⟩

/-- C216: `HashableArray(x)` and `HashableArray(y).replace(wrapped=x)` hold a copy of `x`. -/
theorem C216_hashable (copy : V → V) (x : V) (o : Obj V H) :
    (∃ o', construct (H := H) (hashableArray copy) false { pos := [some x] } = .ok o' ∧ o'.get (.field 0) = some (copy x))
    ∧ ∃ o', replace (hashableArray copy) o [(.field 0, some x)] = .ok o' ∧ o'.get (.field 0) = some (copy x) ∧ o'.hash = none := by
  refine ⟨⟨⟨[(.field 0, some (copy x))], none⟩, ?_, ?_⟩, ⟨⟨[(.field 0, some (copy x))], none⟩, ?_, ?_, rfl⟩⟩
  · simp [construct, hashableArray, preInit, bind, bindRest, lookup, initDataclass, params, fieldsOf, cachesOf, setField]
  · simp [Obj.get, lookup]
  · simp [replace, replaceKw, construct, hashableArray, preInit, bind, bindRest, lookup, initDataclass, params, fieldsOf, cachesOf, setField]
  · simp [Obj.get, lookup]

/-! ## C217: deviations -/

/-- C217, refuted: a cached property that uses `super().p` should have the value of its method applied to the value of the base; it always ends in a RecursionError. -/
theorem C217_super_refuted (c : List (Level V)) (o : Obj V H) (p : Nat) (g) (bases) (m) (hm : method c p = some (.withSuper g, bases))
    (hb : method bases p = some m) (hn : o.get (.cache p) = none) (d : Nat) : read c p d o = .error .runtimeError := by
  induction d with
  | zero => rfl
  | succ d ih => rw [read, hn, hm]; simp only [hb, ih]

/-- C217, refuted: a positional argument too many should be refused with a TypeError; it becomes the value of the first cached property. -/
theorem C217_positional_refuted (c : List (Level V)) (hpre : ∀ a, preInit c a = .ok a) (p : Nat) (ps : List Nat) (hp : cachesOf c = p :: ps) (xs : List (Option V))
    (hx : xs.length = (fieldsOf c).length) (v : V) :
    ∃ o : Obj V H, construct c false { pos := xs ++ [some v] } = .ok o ∧ ∀ d, read c p (d + 1) o = .ok (v, o) := by
  let vals : List (Name × Option V) := ((fieldsOf c).map fun f => Name.field f.1).zip xs ++ (Name.cache p, some v) :: ps.map fun q => (Name.cache q, none)
  have hl : (params c).length = xs.length + 1 + ps.length := by simp [params, hp, hx]; omega
  have hb : bind (params c) { pos := xs ++ [some v] } = .ok vals := by
    have ht : (params c).take (xs.length + 1) = (fieldsOf c).map (fun f => (Name.field f.1, f.2)) ++ [(Name.cache p, some none)] := by
      rw [params, hp, hx, List.take_append, List.take_of_length_le (by simp)]
      simp
    have hd : (params c).drop (xs.length + 1) = ps.map fun q => (Name.cache q, some none) := by
      rw [params, hp, hx, List.drop_append]
      simp
    have hr : bindRest [] (ps.map fun q => (Name.cache q, some (none : Option V))) = .ok (ps.map fun q => (Name.cache q, none)) := by
      rw [bindRest_ok]
      refine ⟨by simp [Function.comp_def], ?_⟩
      rw [List.forall₂_map_left_iff, List.forall₂_map_right_iff, List.forall₂_same]
      intro q _
      rfl
    unfold bind
    simp only [List.length_append, List.length_singleton, List.any_nil, Bool.false_eq_true, if_false, hd, ht, hr]
    rw [if_neg (by omega)]
    simp only [List.map_append, List.map_map, List.map_singleton]
    rw [List.zip_append (by simp [hx])]
    simp [vals, Function.comp_def]
  refine ⟨⟨vals, none⟩, by simp [construct, initDataclass, hpre, hb], fun d => ?_⟩
  have hg : (⟨vals, none⟩ : Obj V H).get (.cache p) = some v := by
    unfold Obj.get
    simp only [vals]
    rw [lookup_append]
    have : lookup (((fieldsOf c).map fun f => Name.field f.1).zip xs) (.cache p) = none := by
      rw [lookup_eq_none]
      intro h
      obtain ⟨e, he, h2⟩ := List.mem_map.1 h
      obtain ⟨f, _, h3⟩ := List.mem_map.1 (List.of_mem_zip he).1
      rw [h2] at h3; cases h3
    rw [this]
    simp [lookup]
  rw [read, hg]

/-- C217, refuted: `replace` of a `PGSymmetry` should give a new object; it is always refused, because `__pre_init__` does not know the names of the fields and caches. -/
theorem C217_symmetry_refuted (affine : Option V → Option V → Except Err V) (name : (Nat → Option V) → V) (o : Obj V H) (updates : List (Name × Option V)) :
    replace (pgSymmetry affine name) o updates = .error .typeError := by
  have hp : preInit (pgSymmetry affine name) { kw := replaceKw (pgSymmetry affine name) o updates } = .error .typeError := by
    have hany : ((replaceKw (pgSymmetry affine name) o updates).any fun e => decide (e.1 ∉ [Name.field 1, Name.field 2])) = true := by
      rw [List.any_eq_true]
      refine ⟨(.cache 0, none), ?_, by simp⟩
      unfold replaceKw
      simp [cachesOf, pgSymmetry]
    revert hany
    generalize replaceKw (pgSymmetry affine name) o updates = kw
    intro hany
    unfold pgSymmetry
    rw [preInit.eq_def]
    simp only [bind, List.length_nil, Nat.not_lt_zero, if_false, List.map_cons, List.map_nil]
    rw [hany]
    rfl
  unfold replace construct
  simp only [hp, Bool.false_eq_true, if_false]

/-- C217, the part that holds for cached properties with `super()`: a cache that is filled already is returned. -/
theorem C217_super_partial (c : List (Level V)) (o : Obj V H) (p : Nat) (v : V) (hn : o.get (.cache p) = some v) (d : Nat) :
    read c p (d + 1) o = .ok (v, o) := by
  rw [read, hn]

/-! ## examples -/

/-- a base with two fields and a cached property, and a derived class with one more field (test/utils/test_struct.py: Point1 and Point1Child). -/
def point : Level Int := { fields := [(0, none), (1, none)], cached := [(0, .plain fun f => (f 0).getD 0 + (f 1).getD 0)] }
def child : Level Int := { fields := [(2, some (some 7))], cached := [(0, .plain fun f => (f 2).getD 0)] }
def superChild : Level Int := { cached := [(0, .withSuper fun _ v => v + 1)] }

example : Distinct [child, point] := by simp [Distinct, child, point]

example : (params [child, point]).map Prod.fst = [.field 0, .field 1, .field 2, .cache 0] := by decide

/-- `Child(1, y=2)`: the default is used; the property of the derived class is read. -/
example : ∃ o : Obj Int Int, construct [child, point] false { pos := [some 1], kw := [(.field 1, some 2)] } = .ok o
    ∧ o.vals = [(.field 0, some 1), (.field 1, some 2), (.field 2, some 7), (.cache 0, none)]
    ∧ (read [child, point] 0 1 o).map Prod.fst = .ok 7 :=
  ⟨⟨[(.field 0, some 1), (.field 1, some 2), (.field 2, some 7), (.cache 0, none)], none⟩, rfl, rfl, rfl⟩

/-- the hypotheses of `C216_replace` and `C216_precompute`: classes without `__pre_init__`, methods without `super()`. -/
example : (∀ kw, preInit [child, point] { kw := kw } = .ok { kw := kw })
    ∧ ∀ p ∈ cachesOf [child, point], ∃ f bases, method [child, point] p = some (.plain f, bases) :=
  ⟨fun _ => rfl, by intro p hp; simp [cachesOf, child, point] at hp; subst hp; exact ⟨_, _, rfl⟩⟩

/-- the hypotheses of `C217_super_refuted`. -/
example : ∃ g bases m, method [superChild, point] 0 = some (.withSuper g, bases) ∧ method bases 0 = some m := ⟨_, _, _, rfl, rfl⟩

/-- a third positional argument for `Point1`. -/
example : (∃ o : Obj Int Int, construct [point] false { pos := [some 1, some 2, some 99] } = .ok o ∧ (read [point] 0 1 o).map Prod.fst = .ok 99) :=
  ⟨⟨[(.field 0, some 1), (.field 1, some 2), (.cache 0, some 99)], none⟩, rfl, rfl⟩

end Verif.DataclassInit
