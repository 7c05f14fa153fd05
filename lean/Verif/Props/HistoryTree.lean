import Verif.Props.History

/-! C26 for nested data: every leaf of the logged trees gets its own history. -/

set_option linter.unusedSectionVars false
set_option linter.unusedVariables false

namespace Verif.Hist
open Verif.Hilbert (Err)

variable {D V : Type} {L H : Type}

/-- one step of a path into nested data: `x[i]` or `x[k]`. -/
inductive Key
  | idx (i : Nat)
  | key (k : String)

/-- the subtree below one step. -/
def Tree.child (t : Tree L) (k : Key) : Option (Tree L) :=
  match t, k with
  | .list ts, .idx i => ts[i]?
  | .tuple ts, .idx i => ts[i]?
  | .dict kvs, .key k => dget k kvs
  | _, _ => Option.none

/-- the leaf at the end of a path. -/
def tell (t : Tree L) : List Key → Option L
  | [] => match t with
    | .leaf x => some x
    | _ => Option.none
  | k :: p => match t.child k with
    | some t' => tell t' p
    | Option.none => Option.none

/-- number of entries of the list or tuple at the end of a path. -/
def lenAt (t : Tree L) : List Key → Option Nat
  | [] => match t with
    | .list ts => some ts.length
    | .tuple ts => some ts.length
    | _ => Option.none
  | k :: p => match t.child k with
    | some t' => lenAt t' p
    | Option.none => Option.none

/-- the dict at the end of a path has distinct keys (as python dicts do). -/
def dictOK (t : Tree L) : List Key → Prop
  | [] => match t with
    | .dict kvs => (kvs.map Prod.fst).Nodup
    | _ => True
  | k :: p => match t.child k with
    | some t' => dictOK t' p
    | Option.none => True

/-- wherever both trees have a list or tuple, it has the same number of entries. -/
def SameLens (a : Tree H) (t : Tree L) : Prop :=
  ∀ p n m, lenAt a p = some n → lenAt t p = some m → n = m

/-- all dicts have distinct keys. -/
def Dicts (t : Tree L) : Prop := ∀ p, dictOK t p

theorem SameLens.child {a : Tree H} {t : Tree L} (h : SameLens a t) (k : Key) {a' : Tree H}
    {t' : Tree L} (ha : a.child k = some a') (ht : t.child k = some t') : SameLens a' t' := by
  intro p n m hn hm
  exact h (k :: p) n m (by simp [lenAt, ha, hn]) (by simp [lenAt, ht, hm])

theorem Dicts.child {t : Tree L} (h : Dicts t) (k : Key) {t' : Tree L} (ht : t.child k = some t') :
    Dicts t' := by
  intro p
  have := h (k :: p)
  simpa [dictOK, ht] using this

theorem tell_none (p : List Key) : tell (Tree.none : Tree L) p = Option.none := by
  cases p with
  | nil => rfl
  | cons k p => cases k <;> rfl

theorem lenAt_none (p : List Key) : lenAt (Tree.none : Tree L) p = Option.none := by
  cases p with
  | nil => rfl
  | cons k p => cases k <;> rfl

theorem sameLens_none (t : Tree L) : SameLens (Tree.none : Tree H) t := by
  intro p n m hn
  rw [lenAt_none] at hn
  simp at hn

theorem accumZip_get (f : Option H → L → Except Err H) (ts : List (Tree L)) :
    ∀ (as rs : List (Tree H)), accumZip f as ts = .ok rs → as.length = ts.length →
    rs.length = ts.length ∧ ∀ (i : Nat) a t, as[i]? = some a → ts[i]? = some t →
      ∃ r, accumTree f a t = .ok r ∧ rs[i]? = some r := by
  induction ts with
  | nil =>
    intro as rs h hl
    simp only [accumZip] at h
    obtain rfl := Except.ok.inj h
    exact ⟨rfl, by simp⟩
  | cons t ts ih =>
    intro as rs h hl
    obtain _ | ⟨a, as⟩ := as
    · simp at hl
    simp only [accumZip] at h
    rcases h1 : accumTree f a t with e | b
    · rw [h1] at h; simp at h
    rw [h1] at h
    rcases h2 : accumZip f as ts with e | bs
    · simp only [h2] at h; simp at h
    simp only [h2] at h
    obtain rfl := Except.ok.inj h
    obtain ⟨h3, h4⟩ := ih as bs h2 (by simpa using hl)
    refine ⟨by simp [h3], ?_⟩
    intro i a' t' ha ht
    cases i with
    | zero =>
      simp only [List.getElem?_cons_zero, Option.some.injEq] at ha ht ⊢
      subst ha; subst ht
      exact ⟨b, h1, rfl⟩
    | succ i =>
      simp only [List.getElem?_cons_succ] at ha ht ⊢
      exact h4 i a' t' ha ht

theorem accumDict_get (f : Option H → L → Except Err H) (kvs : List (String × Tree L)) :
    ∀ (a r : List (String × Tree H)), accumDict f a kvs = .ok r → (kvs.map Prod.fst).Nodup →
    (∀ k t, dget k kvs = some t →
      ∃ b, accumTree f ((dget k a).getD .none) t = .ok b ∧ dget k r = some b)
    ∧ ∀ k, dget k kvs = Option.none → dget k r = dget k a := by
  induction kvs with
  | nil =>
    intro a r h _
    simp only [accumDict] at h
    obtain rfl := Except.ok.inj h
    exact ⟨by simp [dget], fun _ _ => rfl⟩
  | cons p kvs ih =>
    obtain ⟨k, t⟩ := p
    intro a r h hn
    rw [List.map_cons, List.nodup_cons] at hn
    simp only [accumDict] at h
    rcases h1 : accumTree f ((dget k a).getD .none) t with e | b
    · rw [h1] at h; simp at h
    rw [h1] at h
    obtain ⟨h2, h3⟩ := ih _ r h hn.2
    have hk : dget k kvs = Option.none := by
      rcases hd : dget k kvs with _ | t'
      · rfl
      · exfalso
        have : ∀ l : List (String × Tree L), dget k l = some t' → k ∈ l.map Prod.fst := by
          intro l
          induction l with
          | nil => simp [dget]
          | cons q l ih =>
            obtain ⟨k1, t1⟩ := q
            by_cases hkk : k1 = k
            · intro _; simp [hkk]
            · intro hh
              simp only [dget, hkk, if_false] at hh
              simp [ih hh]
        exact hn.1 (this kvs hd)
    constructor
    · intro k' t' ht'
      by_cases hkk : k = k'
      · subst hkk
        simp only [dget, if_true, Option.some.injEq] at ht'
        subst ht'
        exact ⟨b, h1, by rw [h3 k hk, dget_dset_same]⟩
      · simp only [dget, hkk, if_false] at ht'
        obtain ⟨b', h4, h5⟩ := h2 k' t' ht'
        rw [dget_dset_other (Ne.symm hkk)] at h4
        exact ⟨b', h4, h5⟩
    · intro k' hk'
      by_cases hkk : k = k'
      · subst hkk; simp [dget] at hk'
      · simp only [dget, hkk, if_false] at hk'
        rw [h3 k' hk', dget_dset_other (Ne.symm hkk)]

theorem accList_ok {n : Nat} {a : Tree H} {as : List (Tree H)} (h : accList n a = .ok as) :
    (a = .none ∧ as = List.replicate n .none) ∨ ((a = .list as ∨ a = .tuple as)) := by
  cases a with
  | none => simp only [accList] at h; exact Or.inl ⟨rfl, (Except.ok.inj h).symm⟩
  | list xs => simp only [accList] at h; cases Except.ok.inj h; exact Or.inr (Or.inl rfl)
  | tuple xs => simp only [accList] at h; cases Except.ok.inj h; exact Or.inr (Or.inr rfl)
  | leaf x => simp [accList] at h
  | dict x => simp [accList] at h

/-- what one step of accumulation does to the children of a node. -/
theorem accumTree_child (f : Option H → L → Except Err H) (a r : Tree H) (t : Tree L)
    (h : accumTree f a t = .ok r) (hs : SameLens a t) (hd : Dicts t) (k : Key) :
    (∀ t', t.child k = some t' → ∃ r', r.child k = some r'
        ∧ accumTree f ((a.child k).getD .none) t' = .ok r')
    ∧ (t.child k = Option.none → r.child k = a.child k) := by
  have zipcase : ∀ ts as rs, accList ts.length a = .ok as → accumZip f as ts = .ok rs →
      lenAt t [] = some ts.length →
      rs.length = ts.length ∧ (∀ i t', ts[i]? = some t' → ∃ r', rs[i]? = some r' ∧
        accumTree f ((a.child (.idx i)).getD .none) t' = .ok r')
      ∧ (∀ i, ts[i]? = Option.none → a.child (.idx i) = Option.none)
      ∧ (∀ k', a.child (.key k') = Option.none) := by
    intro ts as rs h1 h2 h3
    have hl : as.length = ts.length := by
      rcases accList_ok h1 with ⟨_, e⟩ | e
      · simp [e]
      · have : lenAt a [] = some as.length := by rcases e with rfl | rfl <;> rfl
        exact hs [] _ _ this h3
    obtain ⟨h4, h5⟩ := accumZip_get f ts as rs h2 hl
    have hc : ∀ i, i < ts.length → as[i]? = some ((a.child (.idx i)).getD .none) := by
      intro i hi
      rcases accList_ok h1 with ⟨rfl, e⟩ | e
      · rw [e]; simp [Tree.child, hi]
      · have : a.child (.idx i) = as[i]? := by rcases e with rfl | rfl <;> rfl
        rw [this, List.getElem?_eq_getElem (by omega)]
        rfl
    refine ⟨h4, ?_, ?_, ?_⟩
    · intro i t' ht'
      have hi : i < ts.length := (List.getElem?_eq_some_iff.1 ht').1
      obtain ⟨r', e1, e2⟩ := h5 i _ t' (hc i hi) ht'
      exact ⟨r', e2, e1⟩
    · intro i hi
      rw [List.getElem?_eq_none_iff] at hi
      rcases accList_ok h1 with ⟨rfl, e⟩ | e
      · rfl
      · have : a.child (.idx i) = as[i]? := by rcases e with rfl | rfl <;> rfl
        rw [this, List.getElem?_eq_none_iff]; omega
    · intro k'
      rcases accList_ok h1 with ⟨rfl, e⟩ | e
      · rfl
      · rcases e with rfl | rfl <;> rfl
  cases t with
  | none =>
    simp only [accumTree] at h
    obtain rfl := Except.ok.inj h
    refine ⟨?_, fun _ => rfl⟩
    intro t' ht'
    cases k <;> simp [Tree.child] at ht'
  | leaf x =>
    simp only [accumTree] at h
    refine ⟨by intro t' ht'; cases k <;> simp [Tree.child] at ht', fun _ => ?_⟩
    cases a with
    | none =>
      simp only [accLeaf] at h
      rcases h1 : f Option.none x with e | y
      · rw [h1] at h; simp at h
      · rw [h1] at h; obtain rfl := Except.ok.inj h; cases k <;> rfl
    | leaf g =>
      simp only [accLeaf] at h
      rcases h1 : f (some g) x with e | y
      · rw [h1] at h; simp at h
      · rw [h1] at h; obtain rfl := Except.ok.inj h; cases k <;> rfl
    | list _ => simp [accLeaf] at h
    | tuple _ => simp [accLeaf] at h
    | dict _ => simp [accLeaf] at h
  | list ts =>
    simp only [accumTree] at h
    rcases h1 : accList ts.length a with e | as
    · rw [h1] at h; simp at h
    rw [h1] at h
    rcases h2 : accumZip f as ts with e | rs
    · simp only [h2] at h; simp at h
    simp only [h2] at h
    obtain rfl := Except.ok.inj h
    obtain ⟨z1, z2, z3, z4⟩ := zipcase ts as rs h1 h2 rfl
    cases k with
    | idx i =>
      refine ⟨fun t' ht' => z2 i t' ht', fun hn => ?_⟩
      have hn' : ts[i]? = Option.none := hn
      rw [z3 i hn']
      show rs[i]? = Option.none
      rw [List.getElem?_eq_none_iff] at hn' ⊢
      omega
    | key k' => exact ⟨fun t' ht' => by simp [Tree.child] at ht', fun _ => (z4 k').symm⟩
  | tuple ts =>
    simp only [accumTree] at h
    rcases h1 : accList ts.length a with e | as
    · rw [h1] at h; simp at h
    rw [h1] at h
    rcases h2 : accumZip f as ts with e | rs
    · simp only [h2] at h; simp at h
    simp only [h2] at h
    obtain rfl := Except.ok.inj h
    obtain ⟨z1, z2, z3, z4⟩ := zipcase ts as rs h1 h2 rfl
    cases k with
    | idx i =>
      refine ⟨fun t' ht' => z2 i t' ht', fun hn => ?_⟩
      have hn' : ts[i]? = Option.none := hn
      rw [z3 i hn']
      show rs[i]? = Option.none
      rw [List.getElem?_eq_none_iff] at hn' ⊢
      omega
    | key k' => exact ⟨fun t' ht' => by simp [Tree.child] at ht', fun _ => (z4 k').symm⟩
  | dict kvs =>
    simp only [accumTree] at h
    have hnod : (kvs.map Prod.fst).Nodup := hd []
    rcases h1 : accDict a with e | as
    · rw [h1] at h; simp at h
    rw [h1] at h
    rcases h2 : accumDict f as kvs with e | rs
    · simp only [h2] at h; simp at h
    simp only [h2] at h
    obtain rfl := Except.ok.inj h
    obtain ⟨h3, h4⟩ := accumDict_get f kvs as rs h2 hnod
    have hc : ∀ k', a.child (.key k') = dget k' as := by
      intro k'
      cases a with
      | none => simp only [accDict] at h1; cases Except.ok.inj h1; rfl
      | dict x => simp only [accDict] at h1; cases Except.ok.inj h1; rfl
      | leaf _ => simp [accDict] at h1
      | list _ => simp [accDict] at h1
      | tuple _ => simp [accDict] at h1
    have hci : ∀ i, a.child (.idx i) = Option.none := by
      intro i
      cases a with
      | none => rfl
      | dict x => rfl
      | leaf _ => rfl
      | list _ => simp [accDict] at h1
      | tuple _ => simp [accDict] at h1
    cases k with
    | idx i => exact ⟨fun t' ht' => by simp [Tree.child] at ht', fun _ => (hci i).symm⟩
    | key k' =>
      constructor
      · intro t' ht'
        obtain ⟨b, e1, e2⟩ := h3 k' t' ht'
        exact ⟨b, e2, by rw [hc]; exact e1⟩
      · intro hn
        rw [hc]
        exact h4 k' hn

theorem getD_tell (o : Option (Tree H)) (p : List Key) :
    tell (o.getD .none) p = match o with
      | some b => tell b p
      | Option.none => Option.none := by
  cases o with
  | none => exact tell_none p
  | some b => rfl

theorem SameLens.childD {a : Tree H} {t : Tree L} (h : SameLens a t) (k : Key)
    {t' : Tree L} (ht : t.child k = some t') : SameLens ((a.child k).getD .none) t' := by
  rcases hc : a.child k with _ | a'
  · exact sameLens_none t'
  · exact h.child k hc ht

/-- C26: after `accum_in_tree`, the accumulator at every path is the accumulated leaf if the data have a leaf
    there, and unchanged otherwise.  Lists and tuples must keep their number of entries
    (see `C112_shorter_list_refuted`). -/
theorem C26_accum_in_tree (f : Option H → L → Except Err H) (p : List Key) :
    ∀ (a r : Tree H) (t : Tree L), accumTree f a t = .ok r → SameLens a t → Dicts t →
    (∀ x, tell t p = some x → ∃ h, f (tell a p) x = .ok h ∧ tell r p = some h)
    ∧ (tell t p = Option.none → tell r p = tell a p) := by
  induction p with
  | nil =>
    intro a r t h hs hd
    cases t with
    | none =>
      simp only [accumTree] at h
      obtain rfl := Except.ok.inj h
      exact ⟨by simp [tell], fun _ => rfl⟩
    | leaf x =>
      simp only [accumTree] at h
      rcases h0 : accLeaf a with e | o
      · rw [h0] at h; simp at h
      rw [h0] at h
      rcases h1 : f o x with e | y
      · simp only [h1] at h; simp at h
      simp only [h1] at h
      obtain rfl := Except.ok.inj h
      have ho : tell a [] = o := by
        cases a with
        | none => simp only [accLeaf] at h0; cases Except.ok.inj h0; rfl
        | leaf g => simp only [accLeaf] at h0; cases Except.ok.inj h0; rfl
        | list _ => simp [accLeaf] at h0
        | tuple _ => simp [accLeaf] at h0
        | dict _ => simp [accLeaf] at h0
      refine ⟨?_, by simp [tell]⟩
      intro x' hx'
      simp only [tell, Option.some.injEq] at hx'
      subst hx'
      exact ⟨y, by rw [ho]; exact h1, rfl⟩
    | list ts =>
      simp only [accumTree] at h
      rcases h1 : accList ts.length a with e | as
      · rw [h1] at h; simp at h
      rw [h1] at h
      rcases h2 : accumZip f as ts with e | rs
      · simp only [h2] at h; simp at h
      simp only [h2] at h
      obtain rfl := Except.ok.inj h
      refine ⟨by simp [tell], fun _ => ?_⟩
      rcases accList_ok h1 with ⟨rfl, _⟩ | rfl | rfl <;> rfl
    | tuple ts =>
      simp only [accumTree] at h
      rcases h1 : accList ts.length a with e | as
      · rw [h1] at h; simp at h
      rw [h1] at h
      rcases h2 : accumZip f as ts with e | rs
      · simp only [h2] at h; simp at h
      simp only [h2] at h
      obtain rfl := Except.ok.inj h
      refine ⟨by simp [tell], fun _ => ?_⟩
      rcases accList_ok h1 with ⟨rfl, _⟩ | rfl | rfl <;> rfl
    | dict kvs =>
      simp only [accumTree] at h
      rcases h1 : accDict a with e | as
      · rw [h1] at h; simp at h
      rw [h1] at h
      rcases h2 : accumDict f as kvs with e | rs
      · simp only [h2] at h; simp at h
      simp only [h2] at h
      obtain rfl := Except.ok.inj h
      refine ⟨by simp [tell], fun _ => ?_⟩
      cases a with
      | none => rfl
      | dict x => rfl
      | leaf _ => simp [accDict] at h1
      | list _ => simp [accDict] at h1
      | tuple _ => simp [accDict] at h1
  | cons k p ih =>
    intro a r t h hs hd
    obtain ⟨h1, h2⟩ := accumTree_child f a r t h hs hd k
    have ha : tell a (k :: p) = tell ((a.child k).getD .none) p := by
      rw [getD_tell]; rfl
    rcases ht : t.child k with _ | t'
    · have h3 := h2 ht
      have : tell r (k :: p) = tell a (k :: p) := by simp only [tell, h3]
      exact ⟨by simp [tell, ht], fun _ => this⟩
    · obtain ⟨r', h3, h4⟩ := h1 t' ht
      obtain ⟨h5, h6⟩ := ih _ r' t' h4 (hs.childD k ht) (hd.child k ht)
      have hr : tell r (k :: p) = tell r' p := by simp only [tell, h3]
      have htt : tell t (k :: p) = tell t' p := by simp only [tell, ht]
      rw [ha, hr, htt]
      exact ⟨h5, h6⟩

theorem lenAt_accum (f : Option H → L → Except Err H) (p : List Key) :
    ∀ (a r : Tree H) (t : Tree L), accumTree f a t = .ok r → SameLens a t → Dicts t →
    ∀ n, lenAt r p = some n → lenAt a p = some n ∨ lenAt t p = some n := by
  induction p with
  | nil =>
    intro a r t h hs hd n hn
    cases t with
    | none =>
      simp only [accumTree] at h
      obtain rfl := Except.ok.inj h
      exact Or.inl hn
    | leaf x =>
      simp only [accumTree] at h
      rcases h0 : accLeaf a with e | o
      · rw [h0] at h; simp at h
      rw [h0] at h
      rcases h1 : f o x with e | y
      · simp only [h1] at h; simp at h
      simp only [h1] at h
      obtain rfl := Except.ok.inj h
      simp [lenAt] at hn
    | list ts =>
      simp only [accumTree] at h
      rcases h1 : accList ts.length a with e | as
      · rw [h1] at h; simp at h
      rw [h1] at h
      rcases h2 : accumZip f as ts with e | rs
      · simp only [h2] at h; simp at h
      simp only [h2] at h
      obtain rfl := Except.ok.inj h
      have hl : as.length = ts.length := by
        rcases accList_ok h1 with ⟨_, e⟩ | e
        · simp [e]
        · have : lenAt a [] = some as.length := by rcases e with rfl | rfl <;> rfl
          exact hs [] _ _ this rfl
      right
      rw [← hn]
      simp [lenAt, (accumZip_get f ts as rs h2 hl).1]
    | tuple ts =>
      simp only [accumTree] at h
      rcases h1 : accList ts.length a with e | as
      · rw [h1] at h; simp at h
      rw [h1] at h
      rcases h2 : accumZip f as ts with e | rs
      · simp only [h2] at h; simp at h
      simp only [h2] at h
      obtain rfl := Except.ok.inj h
      have hl : as.length = ts.length := by
        rcases accList_ok h1 with ⟨_, e⟩ | e
        · simp [e]
        · have : lenAt a [] = some as.length := by rcases e with rfl | rfl <;> rfl
          exact hs [] _ _ this rfl
      right
      rw [← hn]
      simp [lenAt, (accumZip_get f ts as rs h2 hl).1]
    | dict kvs =>
      simp only [accumTree] at h
      rcases h1 : accDict a with e | as
      · rw [h1] at h; simp at h
      rw [h1] at h
      rcases h2 : accumDict f as kvs with e | rs
      · simp only [h2] at h; simp at h
      simp only [h2] at h
      obtain rfl := Except.ok.inj h
      simp [lenAt] at hn
  | cons k p ih =>
    intro a r t h hs hd n hn
    obtain ⟨h1, h2⟩ := accumTree_child f a r t h hs hd k
    rcases ht : t.child k with _ | t'
    · left
      simpa only [lenAt, h2 ht] using hn
    · obtain ⟨r', h3, h4⟩ := h1 t' ht
      have hr : lenAt r' p = some n := by simpa only [lenAt, h3] using hn
      rcases ih _ r' t' h4 (hs.childD k ht) (hd.child k ht) n hr with h5 | h5
      · left
        rcases hc : a.child k with _ | a'
        · rw [hc] at h5
          change lenAt (Tree.none : Tree H) p = some n at h5
          rw [lenAt_none] at h5
          simp at h5
        · rw [hc] at h5
          simpa only [lenAt, hc, Option.getD_some] using h5
      · right
        simpa only [lenAt, ht] using h5

/-- the entries a log has for one path. -/
def entriesOf (p : List Key) (log : List (D × V × Tree (Item V))) : List (D × V × Item V) :=
  log.filterMap fun e => (tell e.2.2 p).map fun x => (e.1, e.2.1, x)

theorem runtimeLog_from (np : Numpy D V) (N : List Key → Nat) (p : List Key)
    (log : List (D × V × Tree (Item V))) :
    ∀ (acc r : Tree (History D V)), runtimeLog np acc log = .ok r →
    (∀ q n, lenAt acc q = some n → n = N q) →
    (∀ e ∈ log, Dicts e.2.2 ∧ ∀ q n, lenAt e.2.2 q = some n → n = N q) →
    accumAll np (tell acc p) (entriesOf p log) = .ok (tell r p) := by
  induction log with
  | nil =>
    intro acc r h _ _
    simp only [runtimeLog] at h
    obtain rfl := Except.ok.inj h
    cases tell acc p <;> rfl
  | cons e log ih =>
    obtain ⟨d, t, x⟩ := e
    intro acc r h hacc hlog
    simp only [runtimeLog] at h
    rcases h1 : accumTree (fun o i => accumHistories np o i d t) acc x with e | acc'
    · rw [h1] at h; simp at h
    rw [h1] at h
    obtain ⟨hdx, hlx⟩ := hlog (d, t, x) (by simp)
    have hs : SameLens acc x := by
      intro q n m hn hm
      rw [hacc q n hn, hlx q m hm]
    obtain ⟨h2, h3⟩ := C26_accum_in_tree _ p acc acc' x h1 hs hdx
    have h4 := ih acc' r h (by
      intro q n hn
      rcases lenAt_accum _ q acc acc' x h1 hs hdx n hn with h5 | h5
      · exact hacc q n h5
      · exact hlx q n h5) (fun e he => hlog e (List.mem_cons_of_mem _ he))
    rcases ht : tell x p with _ | y
    · have : entriesOf p ((d, t, x) :: log) = entriesOf p log := by
        simp [entriesOf, ht]
      rw [this, ← h3 ht]
      exact h4
    · obtain ⟨g, h5, h6⟩ := h2 y ht
      have : entriesOf p ((d, t, x) :: log) = (d, t, y) :: entriesOf p log := by
        simp [entriesOf, ht]
      rw [this]
      simp only [accumAll, h5]
      rw [← h6]
      exact h4

/-- C26: a runtime logger that did not raise holds at every path the history of exactly the values
    logged at this path (with their steps, in order), also when some calls have no value there. Together
    with `C26_accum_histories` this gives the entries of that history.  Lists and tuples must keep
    their lengths. -/
theorem C26_runtime_log (np : Numpy D V) (N : List Key → Nat) (p : List Key)
    (log : List (D × V × Tree (Item V))) (r : Tree (History D V))
    (h : runtimeLog np .none log = .ok r)
    (hlog : ∀ e ∈ log, Dicts e.2.2 ∧ ∀ q n, lenAt e.2.2 q = some n → n = N q) :
    accumAll np Option.none (entriesOf p log) = .ok (tell r p) := by
  have := runtimeLog_from np N p log .none r h (by
    intro q n hn; rw [lenAt_none] at hn; simp at hn) hlog
  rwa [tell_none] at this

/-! ## A concrete numpy: integers, floats, their one-dimensional arrays, lists and objects -/

/-- python values of the examples. -/
inductive PV
  | int (z : Int)
  | flt (q : Rat)
  | iarr (xs : List Int)
  | farr (xs : List Rat)
  | lst (xs : List Int)
  | obj (n : Nat)
  | none
  | nan
  deriving DecidableEq

/-- dtype (`int64` or `float64`) and shape of a row (a number, or a vector of some length). -/
structure DT where
  isInt : Bool
  shape : Option Nat
  deriving DecidableEq

/-- numpy's truncation of a float assigned to an integer array. -/
def truncate (q : Rat) : Int := q.num.tdiv q.den

/-- assignment of a value to a row. -/
def pvStore : DT → PV → Except Err PV
  | ⟨true, Option.none⟩, .int z => .ok (.int z)
  | ⟨true, Option.none⟩, .flt q => .ok (.int (truncate q))
  | ⟨true, Option.none⟩, .iarr [z] => .ok (.int z)
  | ⟨true, Option.none⟩, .farr [q] => .ok (.int (truncate q))
  | ⟨false, Option.none⟩, .int z => .ok (.flt z)
  | ⟨false, Option.none⟩, .flt q => .ok (.flt q)
  | ⟨false, Option.none⟩, .nan => .ok .nan
  | ⟨false, Option.none⟩, .none => .ok .nan
  | ⟨false, Option.none⟩, .iarr [z] => .ok (.flt z)
  | ⟨false, Option.none⟩, .farr [q] => .ok (.flt q)
  | ⟨true, some n⟩, .iarr xs => if xs.length = n then .ok (.iarr xs) else .error .valueError
  | ⟨true, some n⟩, .farr xs =>
    if xs.length = n then .ok (.iarr (xs.map truncate)) else .error .valueError
  | ⟨true, some n⟩, .int z => .ok (.iarr (List.replicate n z))
  | ⟨false, some n⟩, .farr xs => if xs.length = n then .ok (.farr xs) else .error .valueError
  | ⟨false, some n⟩, .iarr xs =>
    if xs.length = n then .ok (.farr (xs.map fun z : Int => (z : Rat))) else .error .valueError
  | ⟨false, some n⟩, .flt q => .ok (.farr (List.replicate n q))
  | _, _ => .error .typeError

/-- numbers of a list, if all are integers. -/
def allInts : List PV → Option (List PV)
  | [] => some []
  | .int z :: r => (allInts r).map (.int z :: ·)
  | _ => Option.none

/-- numbers of a list as floats. -/
def allNums : List PV → Option (List PV)
  | [] => some []
  | .int z :: r => (allNums r).map (.flt z :: ·)
  | .flt q :: r => (allNums r).map (.flt q :: ·)
  | _ => Option.none

/-- numpy for the values above; `np.array` of other lists (object arrays) is left out. -/
def pnp : Numpy DT PV where
  view
    | .int _ => .scalar ⟨true, Option.none⟩
    | .flt _ => .scalar ⟨false, Option.none⟩
    | .nan => .scalar ⟨false, Option.none⟩
    | .iarr xs => .array ⟨true, Option.none⟩ (xs.map .int)
    | .farr xs => .array ⟨false, Option.none⟩ (xs.map .flt)
    | .lst xs => .list (xs.map .int)
    | .obj _ => .other
    | .none => .other
  ofList xs :=
    if xs = [] then .ok (⟨false, Option.none⟩, [])
    else match allInts xs, allNums xs with
      | some l, _ => .ok (⟨true, Option.none⟩, l)
      | Option.none, some l => .ok (⟨false, Option.none⟩, l)
      | Option.none, Option.none => .error .typeError
  store := pvStore
  wrap d rows :=
    if d.isInt then (⟨true, some rows.length⟩, .iarr (rows.filterMap fun
      | .int z => some z
      | _ => Option.none))
    else (⟨false, some rows.length⟩, .farr (rows.filterMap fun
      | .flt q => some q
      | _ => Option.none))
  promote d d' := if d.shape = d'.shape then .ok ⟨d.isInt && d'.isInt, d.shape⟩ else .error .valueError
  zero d := match d.shape, d.isInt with
    | Option.none, true => .int 0
    | Option.none, false => .flt 0
    | some n, true => .iarr (List.replicate n 0)
    | some n, false => .farr (List.replicate n 0)
  int0 := (⟨true, Option.none⟩, .int 0)
  pyNone := .none
  emptyList := .lst []

theorem pnp_lawful : Lawful pnp where
  scalar v d h := by
    cases v <;> simp [pnp] at h <;> subst h <;> rfl
  array v w h := by
    obtain ⟨d, rows, h1, h2, h3⟩ := h
    cases v with
    | iarr xs =>
      simp only [pnp, View.array.injEq] at h1
      obtain ⟨rfl, rfl⟩ := h1
      simp only [pnp, List.length_map] at h3
      obtain ⟨rfl, _⟩ := Prod.mk.inj h3
      simp [pnp, pvStore]
    | farr xs =>
      simp only [pnp, View.array.injEq] at h1
      obtain ⟨rfl, rfl⟩ := h1
      simp only [pnp, List.length_map] at h3
      obtain ⟨rfl, _⟩ := Prod.mk.inj h3
      simp [pnp, pvStore]
    | _ => simp [pnp] at h1

/-- contents of the columns of a history, for evaluation. -/
def dump (h : History DT PV) : List (String × List PV) × Nat :=
  (h.valueDict.map fun p => (p.1, p.2.rows), h.len)

/-- dump of a result. -/
def dumpE : Except Err (History DT PV) → Option (List (String × List PV) × Nat)
  | .ok h => some (dump h)
  | .error _ => Option.none

/-- the energy and a vector logged at step `t`. -/
def sampleItem (e : Rat) (v : List Int) : Item PV :=
  .compound "Mean" [("Mean", .flt e), ("Vec", .iarr v), ("Tag", .obj 7)]

/-- kinds of the fields of `sampleItem`. -/
def sampleKind : String → Kind DT
  | "Mean" => .scalar ⟨false, Option.none⟩
  | "Vec" => .array ⟨true, some 2⟩
  | _ => .other

theorem sample_typed (e : Rat) (a b : Int) : Typed pnp sampleKind (sampleItem e [a, b]) where
  nodup := by simp [sampleItem, Item.fields]
  noIters := by simp [sampleItem, Item.fields]
  kind := by
    intro k v hkv
    simp only [sampleItem, Item.fields, List.mem_cons, Prod.mk.injEq, List.not_mem_nil, or_false] at hkv
    rcases hkv with ⟨rfl, rfl⟩ | ⟨rfl, rfl⟩ | ⟨rfl, rfl⟩
    · rfl
    · exact ⟨⟨true, Option.none⟩, [.int a, .int b], rfl, by simp, rfl⟩
    · rfl

/-- a log of three entries. -/
def sampleLog : List (DT × PV × Item PV) :=
  [(⟨true, Option.none⟩, .int 0, sampleItem (1/2) [1, 2]),
   (⟨true, Option.none⟩, .int 5, sampleItem (-3) [3, 4]),
   (⟨true, Option.none⟩, .int 6, sampleItem (7/3) [5, 6])]

theorem sampleLog_ok : ∀ e ∈ sampleLog, e.1 = ⟨true, Option.none⟩
    ∧ pnp.view e.2.1 = .scalar ⟨true, Option.none⟩ ∧ Typed pnp sampleKind e.2.2
    ∧ (e.2.2.fields.map Prod.fst).Perm ["Mean", "Vec", "Tag"] := by
  intro e he
  simp only [sampleLog, List.mem_cons, List.not_mem_nil, or_false] at he
  rcases he with rfl | rfl | rfl
  · exact ⟨rfl, rfl, sample_typed _ _ _, List.Perm.refl _⟩
  · exact ⟨rfl, rfl, sample_typed _ _ _, List.Perm.refl _⟩
  · exact ⟨rfl, rfl, sample_typed _ _ _, List.Perm.refl _⟩

example : ∃ h, accumAll pnp Option.none sampleLog = .ok (some h)
    ∧ ∃ ks', ks'.Perm ["Mean", "Vec", "Tag"] ∧
      Records h ks' (sampleLog.map fun e => (e.2.1, valuesOf pnp e.2.2)) :=
  C26_accum_histories pnp_lawful sampleKind _ _ sampleLog (by decide) sampleLog_ok

/-- the history of `sampleLog`, as built by the code. -/
def sampleHistory : Option (History DT PV) :=
  match accumAll pnp Option.none sampleLog with
  | .ok o => o
  | .error _ => Option.none

example : sampleHistory.map dump = some
    ([("iters", [.int 0, .int 5, .int 6]), ("Mean", [.flt (1/2), .flt (-3), .flt (7/3)]),
      ("Vec", [.iarr [1, 2], .iarr [3, 4], .iarr [5, 6]]), ("Tag", [.obj 7, .obj 7, .obj 7])], 3) := by
  decide +kernel

example : (sampleHistory.map fun h => dumpE (getSlice pnp h (some 1) Option.none Option.none)) = some
    (some ([("iters", [.int 5, .int 6]), ("Mean", [.flt (-3), .flt (7/3)]),
      ("Vec", [.iarr [3, 4], .iarr [5, 6]]), ("Tag", [.obj 7, .obj 7])], 2)) := by
  decide +kernel

example : (sampleHistory.map fun h => dumpE (getSlice pnp h Option.none Option.none (some (-2)))) = some
    (some ([("iters", [.int 6, .int 0]), ("Mean", [.flt (7/3), .flt (1/2)]),
      ("Vec", [.iarr [5, 6], .iarr [1, 2]]), ("Tag", [.obj 7, .obj 7])], 2)) := by
  decide +kernel

example : (sampleHistory.map fun h => dumpE (getInt pnp h (-1))) = some
    (some ([("iters", [.int 6]), ("Mean", [.flt (7/3)]), ("Vec", [.iarr [5, 6]]), ("Tag", [.obj 7])], 1)) := by
  decide +kernel

/-- two columns, one entry. -/
def twoCols : History DT PV where
  valueDict := [("iters", .arr ⟨true, Option.none⟩ [.int 0]), ("a", .arr ⟨true, Option.none⟩ [.int 1]),
    ("b", .arr ⟨false, Option.none⟩ [.flt 2])]
  valueName := Option.none
  len := 1
  single := false
  keys := ["a", "b"]

example : dumpE (mkHistory pnp (.dict [("a", .py (.int 1)), ("b", .py (.flt 2))]) .none)
    = some (dump twoCols) := by decide +kernel

/-- values of the keys of `twoCols`. -/
def twoVals (a : Int) (b : Rat) (k : String) : PV := if k = "a" then .int a else .flt b

theorem twoCols_records : Records twoCols ["a", "b"] [(.int 0, twoVals 1 2)] where
  keys := rfl
  len := rfl
  times := ⟨_, rfl⟩
  values := by
    intro k hk
    simp only [List.mem_cons, List.not_mem_nil, or_false] at hk
    rcases hk with rfl | rfl <;> rfl

example : ∃ h', append pnp twoCols (.dict [("b", .flt 6), ("a", .int 5)]) (some (.int 3)) = (h', Option.none)
    ∧ Records h' ["a", "b"] ([(.int 0, twoVals 1 2)] ++ [(.int 3, twoVals 5 6)]) := by
  obtain ⟨h', h1, h2, _⟩ := C26_append pnp twoCols ["a", "b"] _
    (.dict [("b", .flt 6), ("a", .int 5)]) (twoVals 5 6) (.int 3) twoCols_records
    ⟨List.Perm.swap _ _ _, by decide, by decide, by
      intro k v hkv
      simp only [Item.fields, List.mem_cons, Prod.mk.injEq, List.not_mem_nil, or_false] at hkv
      rcases hkv with ⟨rfl, rfl⟩ | ⟨rfl, rfl⟩ <;> rfl, by
      intro k hk c hc d xs hd
      simp only [twoCols, List.mem_cons, List.not_mem_nil, or_false] at hk
      rcases hk with rfl | rfl
      · cases hc; cases hd; rfl
      · cases hc; cases hd; rfl, by
      intro c hc d xs hd
      cases hc; cases hd; rfl⟩
  exact ⟨h', h1, h2⟩

example : ∃ h', appendHistory pnp twoCols twoCols Option.none = (h', Option.none)
    ∧ Records h' ["a", "b"] ([(.int 0, twoVals 1 2)] ++ [(.int 0, twoVals 1 2)]) := by
  refine C26_concat pnp twoCols twoCols _ _ _ _ twoCols_records twoCols_records (by decide)
    (by decide) (List.Perm.refl _) ?_
  intro k hk a b ha hb
  simp only [List.cons_append, List.nil_append, List.mem_cons, List.not_mem_nil, or_false] at hk
  rcases hk with rfl | rfl | rfl
  · cases ha; cases hb
    exact ⟨_, _, _, rfl, rfl, rfl, by simp [Col.rows, pnp, pvStore]⟩
  · cases ha; cases hb
    exact ⟨_, _, _, rfl, rfl, rfl, by simp [Col.rows, pnp, pvStore]⟩
  · cases ha; cases hb
    exact ⟨_, _, _, rfl, rfl, rfl, by simp [Col.rows, pnp, pvStore]⟩

example : (fun h' => dump h') (appendHistory pnp twoCols twoCols Option.none).1
    = ([("iters", [.int 0, .int 0]), ("a", [.int 1, .int 1]), ("b", [.flt 2, .flt 2])], 2) := by
  decide +kernel

/-- two calls of a logger; the second has one more key. -/
def sampleTrees : List (DT × PV × Tree (Item PV)) :=
  [(⟨true, Option.none⟩, .int 0, .dict [("Energy", .leaf (sampleItem 1 [1, 2]))]),
   (⟨true, Option.none⟩, .int 1, .dict [("Energy", .leaf (sampleItem 2 [3, 4])),
      ("obs", .list [.leaf (.val (.int 9)), .none])])]

/-- the accumulated data of `sampleTrees`. -/
def sampleData (p : List Key) : Option (List (String × List PV) × Nat) :=
  match runtimeLog pnp .none sampleTrees with
  | .ok t => (tell t p).map dump
  | .error _ => Option.none

example : sampleData [.key "Energy"] = some
    ([("iters", [.int 0, .int 1]), ("Mean", [.flt 1, .flt 2]),
      ("Vec", [.iarr [1, 2], .iarr [3, 4]]), ("Tag", [.obj 7, .obj 7])], 2) := by decide +kernel

example : sampleData [.key "obs", .idx 0] = some
    ([("iters", [.int 1]), ("value", [.int 9])], 1) := by decide +kernel

example : sampleData [.key "obs", .idx 1] = Option.none := by decide +kernel

/-- the hypotheses of `C26_runtime_log` hold for `sampleTrees`. -/
example : ∀ e ∈ sampleTrees, Dicts e.2.2 ∧ ∀ q n, lenAt e.2.2 q = some n → n = 2 := by
  have hleaf : ∀ (x : Item PV) q, lenAt (.leaf x) q = Option.none := by
    intro x q; cases q with
    | nil => rfl
    | cons k q => cases k <;> rfl
  have dleaf : ∀ (x : Item PV) q, dictOK (.leaf x) q := by
    intro x q; cases q with
    | nil => trivial
    | cons k q => cases k <;> trivial
  intro e he
  simp only [sampleTrees, List.mem_cons, List.not_mem_nil, or_false] at he
  rcases he with rfl | rfl
  · constructor
    · intro q
      cases q with
      | nil => simp [dictOK]
      | cons k q =>
        cases k with
        | idx i => trivial
        | key k =>
          by_cases hk : "Energy" = k
          · simp only [dictOK, Tree.child, dget, hk, if_true]; exact dleaf _ _
          · simp [dictOK, Tree.child, dget, hk]
    · intro q n hn
      cases q with
      | nil => simp [lenAt] at hn
      | cons k q =>
        cases k with
        | idx i => simp [lenAt, Tree.child] at hn
        | key k =>
          by_cases hk : "Energy" = k
          · simp only [lenAt, Tree.child, dget, hk, if_true, hleaf] at hn; simp at hn
          · simp [lenAt, Tree.child, dget, hk] at hn
  · constructor
    · intro q
      cases q with
      | nil => simp [dictOK]
      | cons k q =>
        cases k with
        | idx i => trivial
        | key k =>
          by_cases hk : "Energy" = k
          · simp only [dictOK, Tree.child, dget, hk, if_true]; exact dleaf _ _
          · by_cases hk2 : "obs" = k
            · simp only [dictOK, Tree.child, dget, hk, hk2, if_true, if_false]
              cases q with
              | nil => trivial
              | cons k q =>
                cases k with
                | key k => trivial
                | idx i =>
                  rcases i with _ | _ | i
                  · exact dleaf _ _
                  · cases q with
                    | nil => trivial
                    | cons k q => cases k <;> trivial
                  · trivial
            · simp [dictOK, Tree.child, dget, hk, hk2]
    · intro q n hn
      cases q with
      | nil => simp [lenAt] at hn
      | cons k q =>
        cases k with
        | idx i => simp [lenAt, Tree.child] at hn
        | key k =>
          by_cases hk : "Energy" = k
          · simp only [lenAt, Tree.child, dget, hk, if_true, hleaf] at hn; simp at hn
          · by_cases hk2 : "obs" = k
            · simp only [lenAt, Tree.child, dget, hk, hk2, if_true, if_false] at hn
              cases q with
              | nil => simp [lenAt] at hn; omega
              | cons k q =>
                cases k with
                | key k => simp [lenAt, Tree.child] at hn
                | idx i =>
                  rcases i with _ | _ | i
                  · simp [lenAt, Tree.child, hleaf] at hn
                  · simp [lenAt, Tree.child, lenAt_none] at hn
                  · simp [lenAt, Tree.child] at hn
            · simp [lenAt, Tree.child, dget, hk, hk2] at hn

/-! ## Refutations -/

/-- C112 is false for the default constructor: `History()` has no iterations but one value. -/
theorem C112_default_constructor_refuted :
    ¬ ∀ (np : Numpy DT PV) h, mkHistory np (.none : Arg DT PV) .none = .ok h →
      ∀ k c, dget k h.valueDict = some c → c.rows.length = h.len := by
  intro hall
  have hw : (match mkHistory pnp (.none : Arg DT PV) .none with
      | .ok h => decide (dget "value" (dump h).1 = some [.lst []] ∧ h.len = 0)
      | .error _ => false) = true := by decide +kernel
  rcases hm : mkHistory pnp (.none : Arg DT PV) .none with e | h
  · rw [hm] at hw; exact absurd hw Bool.false_ne_true
  · rw [hm] at hw
    obtain ⟨h1, h2⟩ := of_decide_eq_true hw
    have key : ∀ l : List (String × Col DT PV), ∀ xs, dget "value" (l.map fun p => (p.1, p.2.rows)) = some xs →
        ∃ c, dget "value" l = some c ∧ c.rows = xs := by
      intro l
      induction l with
      | nil => simp [dget]
      | cons p l ih =>
        obtain ⟨k, c⟩ := p
        intro xs hx
        by_cases hk : k = "value"
        · simp only [List.map_cons, dget, hk, if_true, Option.some.injEq] at hx ⊢
          exact ⟨c, rfl, hx⟩
        · simp only [List.map_cons, dget, hk, if_false] at hx ⊢
          exact ih xs hx
    obtain ⟨c, hc, hr⟩ := key _ _ h1
    have := hall pnp h hm "value" c hc
    rw [hr, h2] at this
    simp at this

/-- all columns are as long as the time axis. -/
def equalLengths (h : History DT PV) : Bool :=
  (dump h).1.all fun p => p.2.length == h.len

/-- C112 is false for a list of values: `History([1, 2, 3], iters=[0, 1, 2])` stores the whole list as one value. -/
theorem C112_list_of_values_refuted :
    ¬ ∀ (v : PV) (xs : List PV) h, mkHistory pnp (.val v) (.list xs) = .ok h →
      equalLengths h = true := by
  intro hall
  have hw : (match mkHistory pnp (.val (.lst [1, 2, 3])) (.list [.int 0, .int 1, .int 2]) with
      | .ok h => !equalLengths h
      | .error _ => false) = true := by decide +kernel
  rcases hm : mkHistory pnp (.val (.lst [1, 2, 3])) (.list [.int 0, .int 1, .int 2]) with e | h
  · rw [hm] at hw; exact absurd hw Bool.false_ne_true
  · rw [hm] at hw
    have := hall _ _ h hm
    simp [this] at hw

/-- C112 is false for dicts of lists: their lengths are not checked against the time axis. -/
theorem C112_list_length_refuted :
    ¬ ∀ (fs : List (String × Fld DT PV)) (it : Iters DT PV) h, mkHistory pnp (.dict fs) it = .ok h →
      equalLengths h = true := by
  intro hall
  have hw : (match mkHistory pnp (.dict [("a", .py (.lst [1, 2, 3]))]) (.scalar ⟨true, Option.none⟩ (.int 0)) with
      | .ok h => !equalLengths h
      | .error _ => false) = true := by decide +kernel
  rcases hm : mkHistory pnp (.dict [("a", .py (.lst [1, 2, 3]))]) (.scalar ⟨true, Option.none⟩ (.int 0)) with e | h
  · rw [hm] at hw; exact absurd hw Bool.false_ne_true
  · rw [hm] at hw
    have := hall _ _ h hm
    simp [this] at hw

/-- C112 is false for items with a missing key: the append succeeds and the columns get out of step. -/
theorem C112_missing_key_refuted :
    ¬ ∀ (h : History DT PV) x t h', equalLengths h = true →
      append pnp h x (some t) = (h', Option.none) → equalLengths h' = true := by
  intro hall
  have h1 : (append pnp twoCols (.dict [("a", .int 5)]) (some (.int 1))).2 = Option.none := by
    decide +kernel
  have h2 := hall twoCols (.dict [("a", .int 5)]) (.int 1) _ (by decide +kernel) (Prod.ext rfl h1)
  exact absurd h2 (by decide +kernel)

/-- C112 is false when an append raises: a dict with an unknown key has already extended the other columns. -/
theorem C112_unknown_key_refuted :
    ¬ ∀ (h : History DT PV) x t h' e, append pnp h x (some t) = (h', some e) → dump h' = dump h := by
  intro hall
  have h1 : (append pnp twoCols (.dict [("a", .int 5), ("c", .int 6)]) (some (.int 1))).2
      = some .keyError := by decide +kernel
  have h2 := hall twoCols _ (.int 1) _ _ (Prod.ext rfl h1)
  exact absurd h2 (by decide +kernel)

/-- C112 is false for `append` without an iteration: the documentation promises "increment by 1", the code raises
    a TypeError (integer time axis) after having extended the columns. -/
theorem C112_no_iteration_refuted :
    ¬ ∀ (h : History DT PV) x, (append pnp h x (some (.int 1))).2 = Option.none →
      (append pnp h x Option.none).2 = Option.none := by
  intro hall
  have := hall twoCols (.dict [("a", .int 5), ("b", .flt 6)]) (by decide +kernel)
  exact absurd this (by decide +kernel)

/-- the history left behind by the failed append has a column longer than its time axis' entries. -/
example : dump (append pnp twoCols (.dict [("a", .int 5), ("b", .flt 6)]) Option.none).1
    = ([("iters", [.int 0, .int 0]), ("a", [.int 1, .int 5]), ("b", [.flt 2, .flt 6])], 1) := by
  decide +kernel

/-- C112 is false for values of another dtype: 5/2 appended to a column started with an integer is stored as 2. -/
theorem C112_truncated_refuted :
    ¬ ∀ (h : History DT PV) (v : PV) t h', append pnp h (.val v) (some t) = (h', Option.none) →
      ∃ xs, dget "value" (dump h').1 = some (xs ++ [v]) := by
  intro hall
  have hw : ∃ h : History DT PV, accumAll pnp Option.none [(⟨true, Option.none⟩, .int 0, .val (.int 1))] = .ok (some h)
      ∧ (append pnp h (.val (.flt (5/2))) (some (.int 1))).2 = Option.none
      ∧ dget "value" (dump (append pnp h (.val (.flt (5/2))) (some (.int 1))).1).1 = some [.int 1, .int 2] :=
    ⟨_, rfl, by decide +kernel, by decide +kernel⟩
  obtain ⟨h, _, h1, h2⟩ := hw
  obtain ⟨xs, hx⟩ := hall h (.flt (5/2)) (.int 1) _ (Prod.ext rfl h1)
  rw [h2] at hx
  have : [PV.int 1, PV.int 2].getLast? = (xs ++ [PV.flt (5/2)]).getLast? := by rw [Option.some.inj hx]
  simp at this

/-- C112 is false for rows that are lists: `h[0]` takes the row for the column. -/
theorem C112_list_row_refuted :
    ¬ ∀ (h : History DT PV) (i : Int) h', equalLengths h = true → getInt pnp h i = .ok h' →
      equalLengths h' = true := by
  intro hall
  let h : History DT PV :=
    { valueDict := [("iters", .arr ⟨true, Option.none⟩ [.int 0]), ("a", .list [.lst [1, 2, 3]])]
      valueName := Option.none, len := 1, single := false, keys := ["a"] }
  have hw : (match getInt pnp h 0 with
      | .ok h => !equalLengths h
      | .error _ => false) = true := by decide +kernel
  rcases hm : getInt pnp h 0 with e | h'
  · rw [hm] at hw; exact absurd hw Bool.false_ne_true
  · rw [hm] at hw
    have := hall h 0 h' (by decide +kernel) hm
    simp [this] at hw

/-- C112 is false for nested lists that get shorter: the histories past the end of the new list are dropped. -/
theorem C112_shorter_list_refuted :
    ¬ ∀ (f : Option Nat → Nat → Except Err Nat) (p : List Key) (a r : Tree Nat) (t : Tree Nat),
      accumTree f a t = .ok r → Dicts t → tell t p = Option.none → tell r p = tell a p := by
  intro hall
  have h1 := hall (fun o x => .ok (o.getD 0 + x)) [.idx 1] (.list [.leaf 10, .leaf 20]) (.list [.leaf 11])
    (.list [.leaf 1]) rfl (by
      intro p
      cases p with
      | nil => trivial
      | cons k p =>
        rcases k with i | k
        · rcases i with _ | i
          · cases p with
            | nil => trivial
            | cons k p => cases k <;> trivial
          · trivial
        · trivial) rfl
  simp [tell, Tree.child] at h1

end Verif.Hist
