import Verif.Model.LoadVars
import Verif.Props.StateLog
import Mathlib.Tactic.Common

/-! C194: variables which were saved are loaded again. -/

set_option linter.unusedVariables false

namespace Verif.Load
open Verif.Hilbert (Err)
open Verif.Log (Name fileName numbered everyKth everyKth_zero NoBack)

variable {A B : Type}

/-! ## Restoring dictionaries -/

/-- the entry of a tree under a sequence of keys. -/
def Tree.get : Tree A → List String → Option (Tree A)
  | t, [] => some t
  | .leaf _, _ :: _ => none
  | .node items, k :: ks =>
    match items.lookup k with
    | none => none
    | some t => t.get ks

/-- dictionaries have every key once, at all levels. -/
inductive Dicts : Tree A → Prop
  | leaf (a : A) : Dicts (.leaf a)
  | node (items : List (String × Tree A)) : (items.map Prod.fst).Nodup → (∀ p ∈ items, Dicts p.2) → Dicts (.node items)

/-- every key of the first tree is a key of the second, at all levels. -/
inductive SubKeys : Tree A → Tree A → Prop
  | leaf (a : A) (s : Tree A) : SubKeys (.leaf a) s
  | empty (s : Tree A) : SubKeys (.node []) s
  | node (ts ss : List (String × Tree A)) : (∀ p ∈ ts, ∃ s, ss.lookup p.1 = some s) → (∀ p ∈ ts, ∀ s, ss.lookup p.1 = some s → SubKeys p.2 s) →
      SubKeys (.node ts) (.node ss)

/-- the same keys in the same order at all levels. -/
inductive SameShape : Tree A → Tree A → Prop
  | leaf (a b : A) : SameShape (.leaf a) (.leaf b)
  | node (ts ss : List (String × Tree A)) : ts.map Prod.fst = ss.map Prod.fst → (∀ (i : Nat) (p q : String × Tree A), ts[i]? = some p → ss[i]? = some q → SameShape p.2 q.2) →
      SameShape (.node ts) (.node ss)

theorem lookup_mem (items : List (String × Tree A)) (k : String) (t : Tree A) (h : items.lookup k = some t) : (k, t) ∈ items := by
  induction items with
  | nil => simp at h
  | cons p items ih =>
    obtain ⟨k', t'⟩ := p
    rw [List.lookup_cons] at h
    by_cases hk : k = k'
    · subst hk; simp at h; subst h; exact List.mem_cons_self
    · rw [show (k == k') = false by simpa using hk] at h
      exact List.mem_cons_of_mem _ (ih h)

theorem lookup_of_mem (items : List (String × Tree A)) (hnd : (items.map Prod.fst).Nodup) (k : String) (t : Tree A) (h : (k, t) ∈ items) :
    items.lookup k = some t := by
  induction items with
  | nil => simp at h
  | cons p items ih =>
    obtain ⟨k', t'⟩ := p
    rw [List.map_cons, List.nodup_cons] at hnd
    rw [List.lookup_cons]
    rcases List.mem_cons.1 h with h' | h'
    · simp only [Prod.mk.injEq] at h'
      rw [h'.1, h'.2]; simp
    · have hne : k ≠ k' := by
        rintro rfl
        exact hnd.1 (List.mem_map.2 ⟨_, h', rfl⟩)
      rw [show (k == k') = false by simpa using hne]
      exact ih hnd.2 h'

theorem restoreItems_spec (ts ss : List (String × Tree A)) (hts : (ts.map Prod.fst).Nodup)
    (hrec : ∀ p ∈ ts, ∀ s, ss.lookup p.1 = some s → ∃ r, restore p.2 s = .ok r ∧ ∀ ks a, p.2.get ks = some (.leaf a) → r.get ks = s.get ks)
    (hkeys : ∀ p ∈ ts, ss.lookup p.1 ≠ none) :
    ∃ rs, restoreItems ts ss = .ok rs ∧ rs.map Prod.fst = ts.map Prod.fst
      ∧ ∀ k t, ts.lookup k = some t → ∃ s r, ss.lookup k = some s ∧ rs.lookup k = some r ∧ restore t s = .ok r
        ∧ ∀ ks a, t.get ks = some (.leaf a) → r.get ks = s.get ks := by
  induction ts with
  | nil => exact ⟨[], by simp [restoreItems], rfl, fun k t h => by simp at h⟩
  | cons p ts ih =>
    obtain ⟨k0, t0⟩ := p
    rw [List.map_cons, List.nodup_cons] at hts
    obtain ⟨rs, h1, h2, h3⟩ := ih hts.2 (fun p hp => hrec p (List.mem_cons_of_mem _ hp)) (fun p hp => hkeys p (List.mem_cons_of_mem _ hp))
    cases hs : ss.lookup k0 with
    | none => exact absurd hs (hkeys (k0, t0) List.mem_cons_self)
    | some s =>
      obtain ⟨r, r1, r2⟩ := hrec (k0, t0) List.mem_cons_self s hs
      refine ⟨(k0, r) :: rs, by simp only [restoreItems, hs, r1, h1], by simp [h2], fun k t hk => ?_⟩
      rw [List.lookup_cons] at hk ⊢
      by_cases he : k = k0
      · subst he
        simp only [beq_self_eq_true, Option.some.injEq] at hk ⊢
        subst hk
        exact ⟨s, r, hs, rfl, r1, r2⟩
      · have hb : (k == k0) = false := by simpa using he
        simp only [hb] at hk ⊢
        exact h3 k t hk

/-- **C194.** the variables are restored exactly if every key of the target was saved; then the result has the keys of the target at every level, in
    its order, with what was saved at each of its leaves. -/
theorem C194_restore (t s : Tree A) (ht : Dicts t) :
    ((∃ r, restore t s = .ok r) ↔ SubKeys t s)
    ∧ ∀ r, restore t s = .ok r → (∀ ks a, t.get ks = some (.leaf a) → r.get ks = s.get ks)
      ∧ ∀ ks ts, t.get ks = some (.node ts) → ∃ rs, r.get ks = some (.node rs) ∧ rs.map Prod.fst = ts.map Prod.fst := by
  induction ht generalizing s with
  | leaf a =>
    refine ⟨⟨fun _ => .leaf a s, fun _ => ⟨s, by simp [restore]⟩⟩, fun r hr => ⟨fun ks b hb => ?_, fun ks ts hts => ?_⟩⟩
    · cases ks with
      | nil => simp only [restore, Except.ok.injEq] at hr; rw [hr]
      | cons k ks => simp [Tree.get] at hb
    · cases ks <;> simp [Tree.get] at hts
  | node ts hnd hd ih =>
    cases s with
    | leaf a =>
      cases ts with
      | nil =>
        refine ⟨⟨fun _ => .empty _, fun _ => ⟨.node [], by simp [restore]⟩⟩, fun r hr => ⟨fun ks b hb => ?_, fun ks ts hts => ?_⟩⟩
        · cases ks <;> simp [Tree.get] at hb
        · cases ks with
          | nil =>
            simp only [restore, Except.ok.injEq] at hr
            simp only [Tree.get, Option.some.injEq, Tree.node.injEq] at hts ⊢
            subst hr; subst hts; exact ⟨[], rfl, rfl⟩
          | cons k ks => simp [Tree.get] at hts
      | cons p ts =>
        refine ⟨⟨fun ⟨r, hr⟩ => by simp [restore] at hr, fun h => by cases h⟩, fun r hr => by simp [restore] at hr⟩
    | node ss =>
      have back : (∃ r, restoreItems ts ss = .ok r) → (∀ p ∈ ts, ∃ x, ss.lookup p.1 = some x) ∧ ∀ p ∈ ts, ∀ x, ss.lookup p.1 = some x → ∃ r, restore p.2 x = .ok r := by
        clear ih hd hnd
        induction ts with
        | nil => intro _; exact ⟨by simp, by simp⟩
        | cons p ts ih =>
          rintro ⟨r, hr⟩
          obtain ⟨k, t⟩ := p
          simp only [restoreItems] at hr
          cases hs : ss.lookup k with
          | none => simp [hs] at hr
          | some x =>
            simp only [hs] at hr
            cases hx : restore t x with
            | error e => simp [hx] at hr
            | ok y =>
              simp only [hx] at hr
              cases hi : restoreItems ts ss with
              | error e => simp [hi] at hr
              | ok rs =>
                obtain ⟨h1, h2⟩ := ih ⟨rs, hi⟩
                constructor
                · intro p hp
                  rcases List.mem_cons.1 hp with rfl | hp
                  · exact ⟨x, hs⟩
                  · exact h1 p hp
                · intro p hp z hz
                  rcases List.mem_cons.1 hp with rfl | hp
                  · simp only at hz
                    rw [hs, Option.some.injEq] at hz
                    subst hz; exact ⟨y, hx⟩
                  · exact h2 p hp z hz
      have unpack : ∀ r, restore (.node ts) (.node ss) = .ok r ↔ ∃ rs, restoreItems ts ss = .ok rs ∧ r = .node rs := by
        intro r
        rw [restore]
        cases restoreItems ts ss with
        | error e => simp
        | ok rs => simp [eq_comm]
      have fwd : (∃ r, restoreItems ts ss = .ok r) → ∃ rs, restoreItems ts ss = .ok rs ∧ rs.map Prod.fst = ts.map Prod.fst
          ∧ ∀ k t, ts.lookup k = some t → ∃ s r, ss.lookup k = some s ∧ rs.lookup k = some r ∧ restore t s = .ok r
            ∧ ∀ ks a, t.get ks = some (.leaf a) → r.get ks = s.get ks := by
        intro h
        obtain ⟨b1, b2⟩ := back h
        refine restoreItems_spec ts ss hnd (fun p hp x hx => ?_) fun p hp hcon => ?_
        · obtain ⟨r, hr⟩ := b2 p hp x hx
          exact ⟨r, hr, ((ih p hp x).2 r hr).1⟩
        · obtain ⟨x, hx⟩ := b1 p hp
          rw [hcon] at hx; simp at hx
      refine ⟨⟨?_, ?_⟩, ?_⟩
      · rintro ⟨r, hr⟩
        obtain ⟨rs, h1, rfl⟩ := (unpack r).1 hr
        obtain ⟨b1, b2⟩ := back ⟨rs, h1⟩
        exact .node ts ss b1 fun p hp x hx => (ih p hp x).1.1 (b2 p hp x hx)
      · intro h
        have h' : (∀ p ∈ ts, ∃ x, ss.lookup p.1 = some x) ∧ ∀ p ∈ ts, ∀ x, ss.lookup p.1 = some x → SubKeys p.2 x := by
          cases h with
          | empty => exact ⟨by simp, by simp⟩
          | node _ _ h1 h2 => exact ⟨h1, h2⟩
        obtain ⟨rs, h1, _⟩ := restoreItems_spec ts ss hnd (fun p hp x hx => by
          obtain ⟨r, hr⟩ := (ih p hp x).1.2 (h'.2 p hp x hx)
          exact ⟨r, hr, ((ih p hp x).2 r hr).1⟩) fun p hp hcon => by
            obtain ⟨x, hx⟩ := h'.1 p hp
            rw [hcon] at hx; simp at hx
        exact ⟨.node rs, (unpack _).2 ⟨rs, h1, rfl⟩⟩
      · intro r hr
        obtain ⟨rs, h1, rfl⟩ := (unpack r).1 hr
        obtain ⟨rs', h1', h2, h3⟩ := fwd ⟨rs, h1⟩
        rw [h1, Except.ok.injEq] at h1'
        subst h1'
        constructor
        · intro ks a ha
          cases ks with
          | nil => simp [Tree.get] at ha
          | cons k ks =>
            simp only [Tree.get] at ha ⊢
            cases hk : ts.lookup k with
            | none => simp [hk] at ha
            | some t =>
              simp only [hk] at ha
              obtain ⟨x, y, e1, e2, _, e3⟩ := h3 k t hk
              rw [e1, e2]
              exact e3 ks a ha
        · intro ks us hus
          cases ks with
          | nil =>
            simp only [Tree.get, Option.some.injEq, Tree.node.injEq] at hus ⊢
            subst hus
            exact ⟨rs, rfl, h2⟩
          | cons k ks =>
            simp only [Tree.get] at hus ⊢
            cases hk : ts.lookup k with
            | none => simp [hk] at hus
            | some t =>
              simp only [hk] at hus
              obtain ⟨x, y, e1, e2, e4, _⟩ := h3 k t hk
              rw [e2]
              exact ((ih (k, t) (lookup_mem ts k t hk) x).2 y e4).2 ks us hus

/-- **C194.** variables saved from a model of the same structure are restored unchanged. -/
theorem C194_restore_same (t s : Tree A) (hs : Dicts s) (h : SameShape t s) : restore t s = .ok s := by
  induction hs generalizing t with
  | leaf a => cases h; simp [restore]
  | node ss hnd hd ih =>
    cases h with
    | node ts _ h1 h2 =>
      have key : ∀ (us vs : List (String × Tree A)), us.map Prod.fst = vs.map Prod.fst → (∀ q ∈ vs, q ∈ ss) →
          (∀ (i : Nat) (p q : String × Tree A), us[i]? = some p → vs[i]? = some q → SameShape p.2 q.2) → restoreItems us ss = .ok vs := by
        intro us
        induction us with
        | nil =>
          intro vs hk _ _
          cases vs with
          | nil => simp [restoreItems]
          | cons => simp at hk
        | cons p us ihu =>
          intro vs hk hm hsh
          cases vs with
          | nil => simp at hk
          | cons q vs =>
            obtain ⟨k, t⟩ := p
            obtain ⟨k', x⟩ := q
            simp only [List.map_cons, List.cons.injEq] at hk
            obtain ⟨rfl, hk⟩ := hk
            have hq := hm (k, x) List.mem_cons_self
            have hl := lookup_of_mem ss hnd k x hq
            have hr := ih (k, x) hq t (hsh 0 _ _ rfl rfl)
            have hrest := ihu vs hk (fun q hq => hm q (List.mem_cons_of_mem _ hq)) fun i p q hp hq => hsh (i + 1) p q (by simpa using hp) (by simpa using hq)
            simp only [restoreItems, hl, hr, hrest]
      rw [restore, key ts ss h1 (fun q hq => hq) h2]

/-! ## Files -/

theorem lookup_append {K V : Type} [BEq K] (l m : List (K × V)) (k : K) : (l ++ m).lookup k = (l.lookup k).or (m.lookup k) := by
  induction l with
  | nil => simp
  | cons p l ih =>
    obtain ⟨k', v⟩ := p
    rw [List.cons_append, List.lookup_cons, List.lookup_cons, ih]
    split <;> simp

theorem lookup_none {K V : Type} [BEq K] [LawfulBEq K] (l : List (K × V)) (k : K) (h : k ∉ l.map Prod.fst) : l.lookup k = none := by
  induction l with
  | nil => rfl
  | cons p l ih =>
    obtain ⟨k', v⟩ := p
    rw [List.map_cons, List.mem_cons, not_or] at h
    rw [List.lookup_cons, ih h.2]
    have : (k == k') = false := by simpa using h.1
    rw [this]

theorem numbered_lookup (hinj : ∀ m n : Int, toString m = toString n → m = n) (bs : List B) (n : Int) (j : Nat) :
    (numbered n bs).lookup (fileName (n + j)) = bs[j]? := by
  induction bs generalizing n j with
  | nil => simp [numbered]
  | cons b bs ih =>
    simp only [numbered, List.lookup_cons]
    cases j with
    | zero => simp [fileName]
    | succ j =>
      have hne : (fileName (n + ((j + 1 : Nat) : Int)) == Name.mpack (toString n)) = false := by
        simp only [fileName, beq_eq_false_iff_ne, ne_eq, Name.mpack.injEq]
        intro h
        have := hinj _ _ h
        omega
      rw [hne]
      have e : n + ((j + 1 : Nat) : Int) = (n + 1) + (j : Int) := by push_cast; omega
      rw [e, ih]
      simp

theorem numbered_lookup_none (hinj : ∀ m n : Int, toString m = toString n → m = n) (bs : List B) (n m : Int) (h : m < n ∨ n + bs.length ≤ m) :
    (numbered n bs).lookup (fileName m) = none := by
  induction bs generalizing n with
  | nil => simp [numbered]
  | cons b bs ih =>
    simp only [numbered, List.lookup_cons]
    have hne : (fileName m == Name.mpack (toString n)) = false := by
      simp only [fileName, beq_eq_false_iff_ne, ne_eq, Name.mpack.injEq]
      intro hm
      have := hinj _ _ hm
      simp only [List.length_cons] at h
      omega
    rw [hne]
    exact ih (n + 1) (by simp only [List.length_cons] at h; push_cast at h; omega)

theorem numbered_map_fst (bs : List B) (n : Int) : (numbered n bs).map Prod.fst = (List.range bs.length).map fun j : Nat => fileName (n + j) := by
  induction bs generalizing n with
  | nil => rfl
  | cons b bs ih =>
    simp only [numbered, List.map_cons, List.length_cons, List.range_succ_eq_map, List.map_cons, List.map_map, ih]
    congr 1
    · simp [fileName]
    · refine List.map_congr_left fun j _ => ?_
      simp only [Function.comp_apply]
      congr 1
      push_cast; omega

theorem numbered_nodup (hinj : ∀ m n : Int, toString m = toString n → m = n) (bs : List B) (n : Int) : ((numbered n bs).map Prod.fst).Nodup := by
  rw [numbered_map_fst]
  refine List.Nodup.map (fun i j h => ?_) List.nodup_range
  simp only [fileName, Name.mpack.injEq] at h
  have := hinj _ _ h
  omega

theorem reverse_lookup {K V : Type} [BEq K] [LawfulBEq K] (l : List (K × V)) (hnd : (l.map Prod.fst).Nodup) (k : K) : l.reverse.lookup k = l.lookup k := by
  induction l with
  | nil => rfl
  | cons p l ih =>
    obtain ⟨k', v⟩ := p
    rw [List.map_cons, List.nodup_cons] at hnd
    rw [List.reverse_cons, lookup_append, ih hnd.2, List.lookup_cons, List.lookup_cons]
    by_cases h : k = k'
    · subst h
      rw [lookup_none l k hnd.1]; simp
    · have : (k == k') = false := by simpa using h
      rw [this]; simp

/-- **C194.** which file is opened: the given name if there is such a file, else the name with the extension, which is added if it is missing. -/
theorem C194_file (parse : B → Tree A) (files : List (Name × B)) (target : Tree A) :
    (∀ name b, files.lookup name = some b → fromFile parse files name target = lift (restore target (parse b)))
    ∧ (∀ n b, files.lookup (.other n) = none → files.lookup (.mpack n) = some b → fromFile parse files (.other n) target = lift (restore target (parse b)))
    ∧ (∀ n, files.lookup (.other n) = none → files.lookup (.mpack n) = none → fromFile parse files (.other n) target = .error .notFound)
    ∧ ∀ n, files.lookup (.mpack n) = none → fromFile parse files (.mpack n) target = .error .notFound := by
  refine ⟨fun name b h => ?_, fun n b h h' => ?_, fun n h h' => ?_, fun n h => ?_⟩
  · simp [fromFile, resolve, h]
  · simp [fromFile, resolve, h, h']
  · simp [fromFile, resolve, h, h']
  · simp [fromFile, resolve, h]

/-- **C194.** after a run with a `StateLog` that writes to a folder and saves every `k`-th state, `variables_from_file` of file number `j` gives the
    variables of call number `k·j`, with or without the extension in the name (without it if the folder has no other file named by the number alone). -/
theorem C194_folder (intOf : String → Option Int) (hint : ∀ n : Int, intOf (toString n) = some n) (parse : B → Tree A) (ser : Tree A → B)
    (hser : ∀ t, parse (ser t) = t) (m : String) (hm : m = "w" ∨ m = "write") (k : Nat) (hk : 0 < k) (store : Log.Store B) (calls : List (Int × Tree A))
    (hne : calls ≠ []) (hb : NoBack 0 (calls.map fun c => (c.1, ser c.2))) (target : Tree A) :
    ∃ l l' S, Log.mkStateLog m k false store = .ok l ∧ Log.stateRun intOf l (calls.map fun c => (c.1, ser c.2)) = .ok l' ∧ l'.store = some S
      ∧ ∀ (j : Nat) (v : Int × Tree A), calls[k * j]? = some v →
        fromFile parse S (.mpack (toString (j : Int))) target = lift (restore target v.2)
        ∧ (((store.getD []).lookup (.other (toString (j : Int)))) = none → fromFile parse S (.other (toString (j : Int))) target = lift (restore target v.2)) := by
  have hinj : ∀ m n : Int, toString m = toString n → m = n := fun m n h => by
    have := hint m
    rw [h, hint] at this
    exact (Option.some.inj this).symm
  obtain ⟨l, l', h1, h2, h3⟩ := Log.C29_write intOf hint m hm k hk false store (calls.map fun c => (c.1, ser c.2)) (by simpa using hne) hb
  refine ⟨l, l', _, h1, h2, h3, fun j v hv => ?_⟩
  rw [if_neg (by simp)]
  set pre := (store.getD []).filter fun p => !Log.isMpack p.1 with hpre
  have hpn : ∀ s, pre.lookup (.mpack s) = none := by
    intro s
    apply lookup_none
    intro hcon
    obtain ⟨p, hp, hps⟩ := List.mem_map.1 hcon
    rw [hpre, List.mem_filter] at hp
    rw [hps] at hp
    simp [Log.isMpack] at hp
  have hj : (everyKth k 0 (calls.map fun c => (c.1, ser c.2)))[j]? = some (ser v.2) := by
    rw [everyKth_zero k hk, List.getElem?_map, hv]; rfl
  have hfind : (pre ++ numbered 0 (everyKth k 0 (calls.map fun c => (c.1, ser c.2)))).lookup (.mpack (toString (j : Int))) = some (ser v.2) := by
    rw [lookup_append, hpn, Option.none_or]
    have := numbered_lookup hinj (everyKth k 0 (calls.map fun c => (c.1, ser c.2))) 0 j
    rw [zero_add, hj] at this
    exact this
  refine ⟨by rw [(C194_file parse _ target).1 _ _ hfind, hser], fun hno => ?_⟩
  have hother : (pre ++ numbered 0 (everyKth k 0 (calls.map fun c => (c.1, ser c.2)))).lookup (.other (toString (j : Int))) = none := by
    rw [lookup_append]
    have e1 : pre.lookup (.other (toString (j : Int))) = none := by
      apply lookup_none
      intro hcon
      obtain ⟨p, hp, hps⟩ := List.mem_map.1 hcon
      have hp' := (List.mem_filter.1 (hpre ▸ hp)).1
      have hsome : ∀ (S : List (Name × B)), p ∈ S → S.lookup p.1 ≠ none := by
        intro S
        induction S with
        | nil => intro h; simp at h
        | cons q S ih =>
          intro h
          rw [List.lookup_cons]
          rcases List.mem_cons.1 h with rfl | h
          · simp
          · split
            · simp
            · exact ih h
      exact hsome _ hp' (hps ▸ hno)
    have e2 : (numbered 0 (everyKth k 0 (calls.map fun c => (c.1, ser c.2)))).lookup (.other (toString (j : Int))) = none := by
      apply lookup_none
      rw [numbered_map_fst]
      simp [fileName]
    rw [e1, e2]; rfl
  rw [(C194_file parse _ target).2.1 _ _ hother hfind, hser]

/-- **C194.** after a run with a `StateLog` that writes an archive, `variables_from_tar` with index `j` gives the variables of call number `k·j`, and
    other indices are a KeyError; the extension of the archive may be left out if there is no file of that name. -/
theorem C194_tar (intOf : String → Option Int) (hint : ∀ n : Int, intOf (toString n) = some n) (parse : B → Tree A) (ser : Tree A → B)
    (hser : ∀ t, parse (ser t) = t) (m : String) (hm : m = "w" ∨ m = "write") (k : Nat) (hk : 0 < k) (store : Log.Store B) (calls : List (Int × Tree A))
    (hne : calls ≠ []) (hb : NoBack 0 (calls.map fun c => (c.1, ser c.2))) (target : Tree A) (name : String) (others : List (TarName × List (Name × B)))
    (hno : others.lookup (.other name) = none) :
    ∃ l l' S, Log.mkStateLog m k true store = .ok l ∧ Log.stateRun intOf l (calls.map fun c => (c.1, ser c.2)) = .ok l' ∧ l'.store = some S
      ∧ ∀ file, file = .tar name ∨ file = .other name →
        (∀ (j : Nat) (v : Int × Tree A), calls[k * j]? = some v → fromTar parse ((.tar name, S) :: others) file target j = lift (restore target v.2))
        ∧ ∀ i : Int, (i < 0 ∨ (calls.length : Int) ≤ k * i) → fromTar parse ((.tar name, S) :: others) file target i = .error (.err .keyError) := by
  have hinj : ∀ m n : Int, toString m = toString n → m = n := fun m n h => by
    have := hint m
    rw [h, hint] at this
    exact (Option.some.inj this).symm
  obtain ⟨l, l', h1, h2, h3⟩ := Log.C29_write intOf hint m hm k hk true store (calls.map fun c => (c.1, ser c.2)) (by simpa using hne) hb
  refine ⟨l, l', _, h1, h2, h3, fun file hfile => ?_⟩
  rw [if_pos rfl, List.nil_append]
  set bs := everyKth k 0 (calls.map fun c => (c.1, ser c.2)) with hbs
  have hopen : (((TarName.tar name, numbered 0 bs) :: others).lookup (resolveTar (fun n => (((TarName.tar name, numbered 0 bs) :: others).lookup n).isSome) file))
      = some (numbered 0 bs) := by
    rcases hfile with rfl | rfl
    · simp [resolveTar]
    · have : ((TarName.tar name, numbered 0 bs) :: others).lookup (.other name) = none := by
        rw [List.lookup_cons, show (TarName.other name == TarName.tar name) = false by simp]; exact hno
      simp [resolveTar, this]
  have hget : ∀ i : Int, getMember (numbered 0 bs) (fileName i) = match (numbered 0 bs).lookup (fileName i) with | none => .error .keyError | some b => .ok b := by
    intro i; unfold getMember; rw [reverse_lookup _ (numbered_nodup hinj bs 0)]; cases (numbered 0 bs).lookup (fileName i) <;> rfl
  constructor
  · intro j v hv
    have hj : bs[j]? = some (ser v.2) := by rw [hbs, everyKth_zero k hk, List.getElem?_map, hv]; rfl
    have hl : (numbered 0 bs).lookup (fileName (j : Int)) = some (ser v.2) := by
      have := numbered_lookup hinj bs 0 j
      rwa [zero_add, hj] at this
    simp only [fromTar, hopen, hget, hl, hser]
  · intro i hi
    have hl : (numbered 0 bs).lookup (fileName i) = none := by
      apply numbered_lookup_none hinj
      rcases hi with hi | hi
      · exact Or.inl hi
      · right
        by_contra hcon
        rw [zero_add, not_le] at hcon
        by_cases hneg : i < 0
        · have : (k : Int) * i ≤ 0 := Int.mul_nonpos_of_nonneg_of_nonpos (by omega) (by omega)
          have hpos : 0 < calls.length := List.length_pos_iff.2 hne
          omega
        · obtain ⟨j, rfl⟩ := Int.eq_ofNat_of_zero_le (by omega : 0 ≤ i)
          have hj : j < bs.length := by exact_mod_cast hcon
          have e := everyKth_zero k hk (calls.map fun c => (c.1, ser c.2)) j
          rw [← hbs, List.getElem?_eq_getElem hj, List.getElem?_eq_none (by rw [List.length_map]; exact_mod_cast hi)] at e
          simp at e
    simp only [fromTar, hopen, hget, hl]

/-- **C194.** after a run that appends to a folder or an archive of earlier states, the variables of call number `k·j` are loaded from number `n+j`,
    where `n` is one more than the largest number there was, and every earlier file or member is loaded as before. -/
theorem C194_append (intOf : String → Option Int) (hint : ∀ n : Int, intOf (toString n) = some n) (parse : B → Tree A) (ser : Tree A → B)
    (hser : ∀ t, parse (ser t) = t) (m : String) (hm : m = "a" ∨ m = "append") (k : Nat) (hk : 0 < k) (tar : Bool) (S : List (Name × B))
    (hnum : ∀ p ∈ S, (tar = true ∨ Log.isMpack p.1 = true) → (intOf (Log.stem p.1)).isSome) (hex : ∃ p ∈ S, tar = true ∨ Log.isMpack p.1 = true)
    (calls : List (Int × Tree A)) (hne : calls ≠ []) (hb : NoBack 0 (calls.map fun c => (c.1, ser c.2))) (target : Tree A) (name : String) :
    ∃ l l' n S', Log.mkStateLog m k tar (some S) = .ok l ∧ Log.stateRun intOf l (calls.map fun c => (c.1, ser c.2)) = .ok l' ∧ l'.store = some S'
      ∧ (∃ p ∈ S, intOf (Log.stem p.1) = some (n - 1))
      ∧ (∀ p ∈ S, (tar = true ∨ Log.isMpack p.1 = true) → ∃ z, intOf (Log.stem p.1) = some z ∧ z < n)
      ∧ (∀ (j : Nat) (v : Int × Tree A), calls[k * j]? = some v →
        (tar = false → fromFile parse S' (fileName (n + j)) target = lift (restore target v.2))
        ∧ (tar = true → fromTar parse [(.tar name, S')] (.tar name) target (n + j) = lift (restore target v.2)))
      ∧ ∀ z : Int, z < n →
        (tar = false → fromFile parse S' (fileName z) target = fromFile parse S (fileName z) target)
        ∧ (tar = true → fromTar parse [(.tar name, S')] (.tar name) target z = fromTar parse [(.tar name, S)] (.tar name) target z) := by
  have hinj : ∀ m n : Int, toString m = toString n → m = n := fun m n h => by
    have := hint m
    rw [h, hint] at this
    exact (Option.some.inj this).symm
  obtain ⟨l, l', n, h1, h2, h3, h4, h5⟩ := Log.C29_append intOf hint m hm k hk tar S hnum hex (calls.map fun c => (c.1, ser c.2)) (by simpa using hne) hb
  refine ⟨l, l', n, _, h1, h2, h3, h5, h4, fun j v hv => ?_, fun z hz => ?_⟩
  · set bs := everyKth k 0 (calls.map fun c => (c.1, ser c.2)) with hbs
    have hj : bs[j]? = some (ser v.2) := by rw [hbs, everyKth_zero k hk, List.getElem?_map, hv]; rfl
    have hl : (numbered n bs).lookup (fileName (n + j)) = some (ser v.2) := by rw [numbered_lookup hinj, hj]
    have hold : S.lookup (fileName (n + j)) = none := by
      apply lookup_none
      intro hcon
      obtain ⟨p, hp, hps⟩ := List.mem_map.1 hcon
      obtain ⟨z, hz, hlt⟩ := h4 p hp (Or.inr (by rw [hps]; rfl))
      have hst : Log.stem p.1 = toString (n + (j : Int)) := by rw [hps]; rfl
      rw [hst, hint, Option.some.injEq] at hz
      omega
    constructor
    · intro _
      have : (S ++ numbered n bs).lookup (fileName (n + j)) = some (ser v.2) := by rw [lookup_append, hold, hl]; rfl
      rw [(C194_file parse _ target).1 _ _ this, hser]
    · intro _
      have hg : getMember (S ++ numbered n bs) (fileName (n + j)) = .ok (ser v.2) := by
        unfold getMember
        rw [List.reverse_append, lookup_append, reverse_lookup _ (numbered_nodup hinj bs n), hl]; rfl
      have ho : ([(TarName.tar name, S ++ numbered n bs)].lookup (resolveTar (fun m => ([(TarName.tar name, S ++ numbered n bs)].lookup m).isSome) (.tar name)))
          = some (S ++ numbered n bs) := by simp [resolveTar]
      simp only [fromTar, ho, hg, hser]
  · set bs := everyKth k 0 (calls.map fun c => (c.1, ser c.2)) with hbs
    have hl : (numbered n bs).lookup (fileName z) = none := numbered_lookup_none hinj bs n z (Or.inl hz)
    constructor
    · intro _
      have : (S ++ numbered n bs).lookup (fileName z) = S.lookup (fileName z) := by rw [lookup_append, hl, Option.or_none]
      have hr : ∀ T : List (Name × B), resolve (fun n => (T.lookup n).isSome) (fileName z) = fileName z := by
        intro T; unfold resolve fileName; split <;> rfl
      simp only [fromFile, hr, this]
    · intro _
      have hg : getMember (S ++ numbered n bs) (fileName z) = getMember S (fileName z) := by
        unfold getMember
        rw [List.reverse_append, lookup_append, reverse_lookup _ (numbered_nodup hinj bs n), hl, Option.none_or]
      have ho : ∀ T : List (Name × B), ([(TarName.tar name, T)].lookup (resolveTar (fun m => ([(TarName.tar name, T)].lookup m).isSome) (.tar name)))
          = some T := by intro T; simp [resolveTar]
      simp only [fromTar, ho, hg]

/-- **C194.** an archive that is not there. -/
theorem C194_no_archive (parse : B → Tree A) (archives : List (TarName × List (Name × B))) (target : Tree A) (name : String) (i : Int)
    (h : archives.lookup (.tar name) = none) :
    fromTar parse archives (.tar name) target i = .error .notFound
    ∧ (archives.lookup (.other name) = none → fromTar parse archives (.other name) target i = .error .notFound) := by
  refine ⟨by simp [fromTar, resolveTar, h], fun h' => by simp [fromTar, resolveTar, h, h']⟩

/-- **C194.** `variables_from_tar` reads the archive of the given name if there is one, with or without extension, and otherwise the one with the
    extension added; in it the last member of the number asked for, and a KeyError if there is none. -/
theorem C194_archive (parse : B → Tree A) (archives : List (TarName × List (Name × B))) (target : Tree A) (i : Int) (name file : TarName)
    (members : List (Name × B)) (hfile : archives.lookup file = some members)
    (hname : name = file ∨ (archives.lookup name = none ∧ ∃ n, name = .other n ∧ file = .tar n)) :
    (∀ pre b post, members = pre ++ (.mpack (toString i), b) :: post → (.mpack (toString i) : Name) ∉ post.map Prod.fst →
      fromTar parse archives name target i = lift (restore target (parse b)))
    ∧ ((.mpack (toString i) : Name) ∉ members.map Prod.fst → fromTar parse archives name target i = .error (.err .keyError)) := by
  have hopen : archives.lookup (resolveTar (fun n => (archives.lookup n).isSome) name) = some members := by
    rcases hname with rfl | ⟨h, n, rfl, rfl⟩
    · simp [resolveTar, hfile]
    · simp [resolveTar, h, hfile]
  constructor
  · intro pre b post hm hpost
    have hg : getMember members (fileName i) = .ok b := by
      have hn : post.reverse.lookup (fileName i) = none := lookup_none _ _ (by simpa [fileName] using hpost)
      unfold getMember
      rw [hm, List.reverse_append, List.reverse_cons, lookup_append, lookup_append, hn]
      simp [fileName]
    simp only [fromTar, hopen, hg]
  · intro hno
    have hg : getMember members (fileName i) = .error .keyError := by
      unfold getMember
      rw [lookup_none _ _ (by simpa [fileName] using hno)]
    simp only [fromTar, hopen, hg]

/-! ## The hypotheses can be met -/

/-- the variables of a model with a kernel and a bias (a test value). -/
def testVars (a b : Int) : Tree Int := .node [("params", .node [("Dense", .node [("kernel", .leaf a), ("bias", .leaf b)])])]

theorem testVars_dicts (a b : Int) : Dicts (testVars a b) := by
  refine .node _ (by simp) fun p hp => ?_
  simp only [List.mem_singleton] at hp; subst hp
  refine .node _ (by simp) fun p hp => ?_
  simp only [List.mem_singleton] at hp; subst hp
  refine .node _ (by simp) fun p hp => ?_
  simp only [List.mem_cons, List.not_mem_nil, or_false] at hp
  rcases hp with rfl | rfl <;> exact .leaf _

example := C194_restore (testVars 1 2) (testVars 3 4) (testVars_dicts 1 2)
example := C194_restore (testVars 1 2) (.node []) (testVars_dicts 1 2)
example : restore (testVars 1 2) (testVars 3 4) = .ok (testVars 3 4) := by
  simp [testVars, restore, restoreItems, List.lookup]
example : SameShape (testVars 1 2) (testVars 3 4) := by
  refine .node _ _ rfl fun i p q hp hq => ?_
  rcases i with _ | i
  · simp only [List.getElem?_cons_zero, Option.some.injEq] at hp hq
    subst hp; subst hq
    refine .node _ _ rfl fun i p q hp hq => ?_
    rcases i with _ | i
    · simp only [List.getElem?_cons_zero, Option.some.injEq] at hp hq
      subst hp; subst hq
      refine .node _ _ rfl fun i p q hp hq => ?_
      rcases i with _ | _ | i
      · simp only [List.getElem?_cons_zero, Option.some.injEq] at hp hq
        subst hp; subst hq; exact .leaf _ _
      · simp only [zero_add, List.getElem?_cons_succ, List.getElem?_cons_zero, Option.some.injEq] at hp hq
        subst hp; subst hq; exact .leaf _ _
      · simp at hp
    · simp at hp
  · simp at hp

example := C194_folder Log.readInt Log.readInt_toString (A := Int) (B := Tree Int) id id (fun _ => rfl) "w" (Or.inl rfl) 2 (by decide) none
  [(0, testVars 1 2), (1, testVars 3 4), (2, testVars 5 6)] (by simp) (by simp [NoBack]) (testVars 0 0)
example := C194_tar Log.readInt Log.readInt_toString (A := Int) (B := Tree Int) id id (fun _ => rfl) "write" (Or.inr rfl) 2 (by decide) none
  [(0, testVars 1 2), (1, testVars 3 4), (2, testVars 5 6)] (by simp) (by simp [NoBack]) (testVars 0 0) "states" [] rfl
example := C194_append Log.readInt Log.readInt_toString (A := Int) (B := Tree Int) id id (fun _ => rfl) "a" (Or.inl rfl) 2 (by decide) true
  [(.mpack "3", testVars 8 9)] (by decide +kernel) ⟨(.mpack "3", testVars 8 9), by simp, Or.inr rfl⟩
  [(0, testVars 1 2), (1, testVars 3 4), (2, testVars 5 6)] (by simp) (by simp [NoBack]) (testVars 0 0) "states"
example := C194_file (A := Int) (B := Tree Int) id [(.mpack "3", testVars 8 9)] (testVars 0 0)
example : C194_no_archive (A := Int) (B := Tree Int) id [] (testVars 0 0) "states" 0 rfl = C194_no_archive id [] (testVars 0 0) "states" 0 rfl := rfl
example := (C194_archive (A := Int) (B := Tree Int) id [(.other "states", [(.mpack "3", testVars 8 9)]), (.tar "states", [])] (testVars 0 0) 3 (.other "states") (.other "states") _ rfl
  (Or.inl rfl)).1 [] (testVars 8 9) []

end Verif.Load
